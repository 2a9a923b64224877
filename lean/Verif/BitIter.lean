import Verif.BitVector

/-!
# include/vectors/bit_vector.hpp: bits_iterator and bit_vector::unary_iterator;
# include/sequences/integer_codes.hpp
-/

namespace Tongrams
open BitVector

/-! ## bits_iterator -/

/-- `bits_iterator<bit_vector>`, members: bit_vector.hpp:60-63. `ws` is the vector iterated upon. -/
structure BitsIter where
  ws : List W
  pos : Nat
  buf : W
  avail : Nat

namespace BitsIter

/-- Constructor, bit_vector.hpp:12-15 (the prefetch has no effect). -/
def new (ws : List W) (pos : Nat) : BitsIter := { ws := ws, pos := pos, buf := 0, avail := 0 }

/-- `fill_buf()`, bit_vector.hpp:55-58. -/
def fillBuf (it : BitsIter) : Option BitsIter := do
  let w ← getWord64 it.ws it.pos
  return { it with buf := w, avail := 64 }

/-- `get_bits(len)`, bit_vector.hpp:17-32. Shifts by more than 63 bits (`len > 64`) are undefined. -/
def getBits (it : BitsIter) (len : Nat) : Option (W × BitsIter) :=
  if len > 64 then none
  else do
    let it ← if it.avail < len then it.fillBuf else some it
    if len ≠ 64 then
      return (it.buf &&& ((1#64 <<< len) - 1#64),
        { it with buf := it.buf >>> len, avail := it.avail - len, pos := it.pos + len })
    else
      return (it.buf, { it with avail := it.avail - len, pos := it.pos + len })

/-- The loop of `skip_zeros`, bit_vector.hpp:36-41. Every iteration but the first advances by 64 bits,
so with `ws.length + 2` rounds of fuel the loop leaves the vector (`none`) before the fuel is over. -/
def skipLoop : Nat → BitsIter → Nat → Option (Nat × BitsIter)
  | 0, _, _ => none
  | fuel + 1, it, zs =>
    if it.buf ≠ 0#64 then some (zs, it)
    else do
      let it' ← fillBuf { it with pos := it.pos + it.avail, avail := 0 }
      skipLoop fuel it' (zs + it.avail)

/-- `skip_zeros()`, bit_vector.hpp:34-49. `m_avail -= l + 1` wraps modulo 2^64. -/
def skipZeros (it : BitsIter) : Option (Nat × BitsIter) := do
  let (zs, it) ← skipLoop (it.ws.length + 2) it 0
  let l := lsb it.buf
  return (zs + l, { it with
    buf := (it.buf >>> l) >>> 1
    avail := (it.avail + 2 ^ 64 - (l + 1)) % 2 ^ 64
    pos := it.pos + (l + 1) })

/-- The buffered bits are the bits of the vector. -/
structure Inv (it : BitsIter) : Prop where
  av : it.avail ≤ 64
  buf : ∀ j, j < it.avail → it.buf.getLsbD j = bitAt it.ws (it.pos + j)

/-- ... and nothing else is in the buffer. -/
structure Clean (it : BitsIter) : Prop extends Inv it where
  clean : ∀ j, it.avail ≤ j → it.buf.getLsbD j = false

theorem new_clean (ws : List W) (pos : Nat) : (new ws pos).Clean :=
  ⟨⟨by simp [new], by simp [new]⟩, by simp [new]⟩

theorem fillBuf_spec {it : BitsIter} (h : it.pos < 64 * it.ws.length) :
    ∃ it', it.fillBuf = some it' ∧ it'.ws = it.ws ∧ it'.pos = it.pos ∧ it'.avail = 64 ∧ it'.Clean := by
  obtain ⟨x, hx, hb⟩ := getWord64_spec h
  refine ⟨{ it with buf := x, avail := 64 }, ?_, rfl, rfl, rfl, ⟨⟨by simp, hb⟩, ?_⟩⟩
  · unfold fillBuf; rw [hx]; rfl
  · intro j hj; exact BitVec.getLsbD_of_ge _ _ hj

/-- Consuming `len` bits of a buffer that has them. -/
theorem getBits_buffered {it : BitsIter} (h : it.Inv) {len : Nat} (hlen : len ≤ 64) (ha : len ≤ it.avail) :
    ∃ x it', it.getBits len = some (x, it') ∧
      (∀ j, x.getLsbD j = (decide (j < len) && bitAt it.ws (it.pos + j))) ∧
      it'.ws = it.ws ∧ it'.pos = it.pos + len ∧ it'.Inv ∧ (it.Clean → len < 64 → it'.Clean) := by
  unfold getBits
  rw [if_neg (by omega), if_neg (by omega)]
  simp only [Option.bind_eq_bind, Option.bind_some, Option.pure_def]
  have hav := h.av
  by_cases h64 : len = 64
  · rw [if_neg (by simp [h64])]
    refine ⟨_, _, rfl, ?_, rfl, rfl, ⟨?_, ?_⟩, fun _ h => absurd h64 (by omega)⟩
    · intro j
      by_cases hj : j < len
      · simp [hj, h.buf j (by omega)]
      · simp only [hj, decide_false, Bool.false_and]; exact BitVec.getLsbD_of_ge _ _ (by omega)
    · simp only; omega
    · intro j hj; simp only at hj; omega
  · rw [if_pos h64]
    refine ⟨_, _, rfl, ?_, rfl, rfl, ⟨?_, ?_⟩, ?_⟩
    · intro j
      have hm : (1#64 <<< len) - 1#64 = maskOf len := by unfold maskOf; rw [if_neg h64]
      rw [hm, BitVec.getLsbD_and, getLsbD_maskOf hlen]
      by_cases hj : j < len
      · simp [hj, h.buf j (by omega)]
      · simp [hj]
    · simp only; omega
    · intro j hj; simp only at hj ⊢
      rw [BitVec.getLsbD_ushiftRight, h.buf _ (by omega)]; congr 1; omega
    · intro hc _
      refine ⟨⟨by simp only; omega, ?_⟩, ?_⟩
      · intro j hj; simp only at hj ⊢
        rw [BitVec.getLsbD_ushiftRight, h.buf _ (by omega)]; congr 1; omega
      · intro j hj; simp only at hj ⊢
        rw [BitVec.getLsbD_ushiftRight]; exact hc.clean _ (by omega)

theorem getBits_spec {it : BitsIter} (h : it.Inv) {len : Nat} (hlen : len ≤ 64)
    (hp : it.pos + len ≤ 64 * it.ws.length) :
    ∃ x it', it.getBits len = some (x, it') ∧
      (∀ j, x.getLsbD j = (decide (j < len) && bitAt it.ws (it.pos + j))) ∧
      it'.ws = it.ws ∧ it'.pos = it.pos + len ∧ it'.Inv ∧ (it.Clean → len < 64 → it'.Clean) := by
  by_cases ha : len ≤ it.avail
  · exact getBits_buffered h hlen ha
  · obtain ⟨it1, e1, hw, hpos, hav, hc⟩ := fillBuf_spec (it := it) (by omega)
    obtain ⟨x, it', e2, hx, hw', hp', hi, hcl⟩ := getBits_buffered hc.toInv hlen (by omega)
    refine ⟨x, it', ?_, ?_, by rw [hw', hw], by rw [hp', hpos], hi, fun _ => hcl hc⟩
    · have : it.getBits len = it1.getBits len := by
        unfold getBits
        rw [if_pos (show it.avail < len by omega), if_neg (show ¬ it1.avail < len by omega), e1]
      rw [this, e2]
    · rw [← hw, ← hpos]; exact hx

theorem skipLoop_spec (q : Nat) :
    ∀ (fuel : Nat) (it : BitsIter) (zs : Nat), it.Clean → bitAt it.ws q = true → it.pos ≤ q →
      (∀ i, it.pos ≤ i → i < q → bitAt it.ws i = false) →
      q + 64 < it.pos + it.avail + 64 * fuel → 1 ≤ fuel →
      ∃ it', skipLoop fuel it zs = some (zs + (it'.pos - it.pos), it') ∧ it'.Clean ∧ it'.ws = it.ws ∧
        it.pos ≤ it'.pos ∧ it'.pos ≤ q ∧ it'.buf ≠ 0#64 := by
  intro fuel
  induction fuel with
  | zero => intro _ _ _ _ _ _ _ h; omega
  | succ fuel ih =>
    intro it zs hc hq hle hz hf _
    unfold skipLoop
    by_cases hb : it.buf ≠ 0#64
    · rw [if_pos hb]
      exact ⟨it, by simp, hc, rfl, Nat.le_refl _, hle, hb⟩
    · rw [if_neg hb]
      have hb0 : it.buf = 0#64 := Classical.not_not.1 hb
      have hav : it.pos + it.avail ≤ q := by
        apply Nat.le_of_not_lt; intro hlt
        have := hc.buf (q - it.pos) (by omega)
        rw [show it.pos + (q - it.pos) = q by omega, hq, hb0] at this
        simp at this
      have hqlen : q < 64 * it.ws.length := by
        apply Nat.lt_of_not_le; intro h'; rw [bitAt_of_ge h'] at hq; exact absurd hq (by simp)
      obtain ⟨it1, e1, hw, hp, ha, hc1⟩ := fillBuf_spec
        (it := { it with pos := it.pos + it.avail, avail := 0 }) (by simp only; omega)
      simp only at hw hp
      rw [e1]
      simp only [Option.bind_eq_bind, Option.bind_some]
      obtain ⟨it2, e2, hc2, hw2, hp2, hp2', hb2⟩ := ih it1 (zs + it.avail) hc1 (by rw [hw]; exact hq)
        (by omega) (by rw [hw, hp]; intro i h1 h2; exact hz i (by omega) h2) (by omega) (by omega)
      refine ⟨it2, ?_, hc2, by rw [hw2, hw], by omega, hp2', hb2⟩
      rw [e2]
      congr 2; omega

/-- `skip_zeros` skips to just after the next one and returns the number of zeros skipped. -/
theorem skipZeros_spec {it : BitsIter} (h : it.Clean) {q : Nat} (hq : bitAt it.ws q = true)
    (hle : it.pos ≤ q) (hz : ∀ i, it.pos ≤ i → i < q → bitAt it.ws i = false) :
    ∃ it', it.skipZeros = some (q - it.pos, it') ∧ it'.ws = it.ws ∧ it'.pos = q + 1 ∧ it'.Clean := by
  have hqlen : q < 64 * it.ws.length := by
    apply Nat.lt_of_not_le; intro h'; rw [bitAt_of_ge h'] at hq; exact absurd hq (by simp)
  obtain ⟨it1, e1, hc, hw, h1, h2, hb⟩ := skipLoop_spec q (it.ws.length + 2) it 0 h hq hle hz (by omega) (by omega)
  unfold skipZeros
  rw [e1]
  simp only [Option.bind_eq_bind, Option.bind_some, Option.pure_def]
  have hl : lsb it1.buf = ctz64 it1.buf := by simp [lsb, hb]
  obtain ⟨hl64, hl1, hl0⟩ := ctz64_spec hb
  have hlav : ctz64 it1.buf < it1.avail := by
    apply Nat.lt_of_not_le; intro h'; rw [hc.clean _ h'] at hl1; exact absurd hl1 (by simp)
  have hav := hc.av
  have hbq : it1.pos + ctz64 it1.buf = q := by
    rcases Nat.lt_trichotomy (it1.pos + ctz64 it1.buf) q with hh | hh | hh
    · rw [hc.buf _ hlav, hw, hz _ (by omega) hh] at hl1; exact absurd hl1 (by simp)
    · exact hh
    · have := hl0 (q - it1.pos) (by omega)
      rw [hc.buf _ (by omega), hw, show it1.pos + (q - it1.pos) = q by omega, hq] at this
      exact absurd this (by simp)
  rw [hl]
  have hwrap : (it1.avail + 2 ^ 64 - (ctz64 it1.buf + 1)) % 2 ^ 64 = it1.avail - (ctz64 it1.buf + 1) := by omega
  rw [hwrap]
  refine ⟨{ it1 with
      buf := (it1.buf >>> ctz64 it1.buf) >>> 1
      avail := it1.avail - (ctz64 it1.buf + 1)
      pos := it1.pos + (ctz64 it1.buf + 1) }, ?_, hw, ?_, ⟨⟨?_, ?_⟩, ?_⟩⟩
  · have : 0 + (it1.pos - it.pos) + ctz64 it1.buf = q - it.pos := by omega
    rw [this]
  · simp only; omega
  · simp only; omega
  · intro j hj; simp only at hj ⊢
    rw [BitVec.getLsbD_ushiftRight, BitVec.getLsbD_ushiftRight, hc.buf _ (by omega)]; congr 1; omega
  · intro j hj; simp only at hj ⊢
    rw [BitVec.getLsbD_ushiftRight, BitVec.getLsbD_ushiftRight]; exact hc.clean _ (by omega)

end BitsIter

/-! ## unary_iterator -/

/-- `bit_vector::unary_iterator`, members: bit_vector.hpp:371-373. -/
structure UnaryIter where
  ws : List W
  position : Nat
  buf : W

namespace UnaryIter

/-- `uint64_t(-1) << s`. -/
def onesFrom (s : Nat) : W := BitVec.allOnes 64 <<< s

/-- Constructor, bit_vector.hpp:312-318. -/
def new (ws : List W) (pos : Nat) : Option UnaryIter := do
  let w ← rd ws (pos / 64)
  return { ws := ws, position := pos, buf := w &&& (onesFrom (pos % 64)) }

/-- The loop of `next`, bit_vector.hpp:327-330; returns the final `m_position`, `buf` and
`pos_in_word`. Every round moves to the next word, so `ws.length + 1` rounds suffice. -/
def nextLoop (ws : List W) : Nat → Nat → W → Option (Nat × W × Nat)
  | 0, _, _ => none
  | fuel + 1, position, buf =>
    match lsb? buf with
    | some p => some (position, buf, p)
    | none =>
      match rd ws ((position + 64) / 64) with
      | none => none
      | some w => nextLoop ws fuel (position + 64) w

/-- `next()`, bit_vector.hpp:324-335. -/
def next (it : UnaryIter) : Option (Nat × UnaryIter) := do
  let (position, buf, p) ← nextLoop it.ws (it.ws.length + 1) it.position it.buf
  let position := position / 64 * 64 + p
  return (position, { it with buf := buf &&& (buf - 1#64), position := position })

/-- The loops of `skip` (`g = id`), bit_vector.hpp:342-346, and `skip0` (`g = ~`), 360-364. -/
def skipLoop (g : W → W) (ws : List W) (k : Nat) : Nat → Nat → W → Nat → Option (Nat × W × Nat)
  | 0, _, _, _ => none
  | fuel + 1, position, buf, skipped =>
    if skipped + popcount buf ≤ k then
      match rd ws ((position + 64) / 64) with
      | none => none
      | some w => skipLoop g ws k fuel (position + 64) (g w) (skipped + popcount buf)
    else some (position, buf, skipped)

/-- The end of `skip` (`g = id`), bit_vector.hpp:348-350, and of `skip0` (`g = ~`), 366-368. -/
def skipFinish (g : W → W) (ws : List W) (k : Nat) (r : Nat × W × Nat) : Option UnaryIter :=
  (selectInWord r.2.1 (k - r.2.2)).map fun p =>
    { ws := ws, buf := g r.2.1 &&& onesFrom p, position := r.1 / 64 * 64 + p }

/-- `skip(k)`, bit_vector.hpp:338-351. -/
def skip (it : UnaryIter) (k : Nat) : Option UnaryIter :=
  (skipLoop id it.ws k (it.ws.length + 1) it.position it.buf 0).bind (skipFinish id it.ws k)

/-- `skip0(k)`, bit_vector.hpp:354-369. -/
def skip0 (it : UnaryIter) (k : Nat) : Option UnaryIter :=
  (skipLoop (fun w => ~~~w) it.ws k (it.ws.length + 1) it.position
    (~~~it.buf &&& onesFrom (it.position % 64)) 0).bind (skipFinish (fun w => ~~~w) it.ws k)

/-- Invariant: the iterator will see the ones at positions `≥ c`. -/
structure At (it : UnaryIter) (c : Nat) : Prop where
  lo : it.position / 64 * 64 ≤ c
  hi : c ≤ it.position / 64 * 64 + 64
  buf : ∀ j, j < 64 → it.buf.getLsbD j =
    (decide (c ≤ it.position / 64 * 64 + j) && bitAt it.ws (it.position / 64 * 64 + j))

theorem getLsbD_shl_ones (s j : Nat) : (onesFrom s).getLsbD j = (decide (j < 64) && decide (s ≤ j)) := by
  unfold onesFrom
  rw [BitVec.getLsbD_shiftLeft, BitVec.getLsbD_allOnes]
  by_cases h1 : j < 64 <;> by_cases h2 : s ≤ j
  · have : j - s < 64 := by omega
    have h3 : ¬ j < s := by omega
    simp [h1, h2, h3, this]
  · have h3 : j < s := by omega
    simp [h2, h3]
  · simp [h1]
  · simp [h1]

theorem new_at {ws : List W} {pos : Nat} (h : pos < 64 * ws.length) :
    ∃ it, new ws pos = some it ∧ it.ws = ws ∧ it.position = pos ∧ it.At pos := by
  refine ⟨⟨ws, pos, ws.getD (pos / 64) 0 &&& (onesFrom (pos % 64))⟩, ?_, rfl, rfl, ⟨?_, ?_, ?_⟩⟩
  · unfold new; rw [rd_of_lt (by omega)]; rfl
  · simp only; omega
  · simp only; omega
  · intro j hj
    simp only
    rw [BitVec.getLsbD_and, getLsbD_getD _ _ _ hj, getLsbD_shl_ones, Nat.mul_comm (pos / 64)]
    by_cases hc : pos % 64 ≤ j
    · have : pos ≤ 64 * (pos / 64) + j := by omega
      simp [hc, hj, this]
    · have : ¬ pos ≤ 64 * (pos / 64) + j := by omega
      simp [hc, this]

theorem getLsbD_clear_lsb {b : W} (hb : b ≠ 0#64) (j : Nat) :
    (b &&& (b - 1#64)).getLsbD j = (b.getLsbD j && decide (j ≠ ctz64 b)) := by
  obtain ⟨h64, h1, h0⟩ := ctz64_spec hb
  -- b = 2^z * (2 m + 1)
  have hlow : b.toNat % 2 ^ (ctz64 b) = 0 := by
    apply Nat.eq_of_testBit_eq; intro i
    rw [Nat.testBit_mod_two_pow, Nat.zero_testBit]
    by_cases hi : i < ctz64 b
    · have := h0 i hi; rw [← BitVec.testBit_toNat] at this; simp [this]
    · simp [hi]
  generalize hz : ctz64 b = z at *
  obtain ⟨m, hm⟩ : ∃ m, b.toNat = 2 ^ z * (2 * m + 1) := by
    have hd := Nat.div_add_mod b.toNat (2 ^ z)
    rw [hlow] at hd
    rw [← BitVec.testBit_toNat, Nat.testBit_eq_decide_div_mod_eq] at h1
    have h1' : b.toNat / 2 ^ z % 2 = 1 := by simpa using h1
    refine ⟨b.toNat / 2 ^ z / 2, ?_⟩
    have : 2 * (b.toNat / 2 ^ z / 2) + 1 = b.toNat / 2 ^ z := by omega
    rw [this]; omega
  have hpos : 0 < b.toNat := by rw [hm]; exact Nat.mul_pos (Nat.two_pow_pos z) (by omega)
  have hsub : (b - 1#64).toNat = b.toNat - 1 := by
    have := b.isLt
    rw [BitVec.toNat_sub]; simp; omega
  have hsub2 : b.toNat - 1 = 2 ^ z * (2 * m) + (2 ^ z - 1) := by
    have h2 := Nat.two_pow_pos z
    rw [hm, Nat.mul_add]; omega
  rw [BitVec.getLsbD_and, ← BitVec.testBit_toNat (x := b - 1#64), hsub, hsub2]
  have hlt : 2 ^ z - 1 < 2 ^ z := by have := Nat.two_pow_pos z; omega
  by_cases hj : j < z
  · rw [h0 j hj]; simp
  · rw [Nat.testBit_two_pow_mul_add _ hlt, if_neg hj]
    by_cases hjz : j = z
    · subst hjz; simp
    · rw [← BitVec.testBit_toNat, hm, Nat.testBit_two_pow_mul]
      have e : j - z = (j - z - 1) + 1 := by omega
      have hge : j ≥ z := by omega
      rw [e, Nat.testBit_succ, Nat.testBit_succ]
      have e1 : 2 * m / 2 = m := by omega
      have e2 : (2 * m + 1) / 2 = m := by omega
      rw [e1, e2]; simp [hge, hjz]

theorem nextLoop_spec {ws : List W} (q : Nat) (hq : bitAt ws q = true) :
    ∀ (fuel : Nat) (it : UnaryIter) (c : Nat), it.ws = ws → it.At c → c ≤ q →
      (∀ i, c ≤ i → i < q → bitAt ws i = false) → q / 64 < it.position / 64 + fuel →
      ∃ pos' buf', nextLoop ws fuel it.position it.buf = some (pos', buf', q % 64) ∧
        pos' / 64 = q / 64 ∧ buf' ≠ 0#64 ∧ ctz64 buf' = q % 64 ∧
        ∀ j, j < 64 → q ≤ pos' / 64 * 64 + j → buf'.getLsbD j = bitAt ws (pos' / 64 * 64 + j) := by
  intro fuel
  induction fuel with
  | zero =>
    intro it c _ hat hcq _ hf
    have := hat.lo; omega
  | succ fuel ih =>
    intro it c hw hat hcq hz hf
    have hlo := hat.lo
    have hhi := hat.hi
    unfold nextLoop
    by_cases hin : q / 64 = it.position / 64
    · have hbit : it.buf.getLsbD (q % 64) = true := by
        rw [hat.buf _ (by omega), hw]
        have : it.position / 64 * 64 + q % 64 = q := by omega
        simp [this, hq, hcq]
      have hne : it.buf ≠ 0#64 := by intro e; rw [e] at hbit; simp at hbit
      obtain ⟨h64, h1, h0⟩ := ctz64_spec hne
      have hcz : ctz64 it.buf = q % 64 := by
        rcases Nat.lt_trichotomy (ctz64 it.buf) (q % 64) with hh | hh | hh
        · rw [hat.buf _ h64, hw] at h1
          simp only [Bool.and_eq_true, decide_eq_true_eq] at h1
          rw [hz _ h1.1 (by omega)] at h1; exact absurd h1.2 (by simp)
        · exact hh
        · rw [h0 _ hh] at hbit; exact absurd hbit (by simp)
      have hl : lsb? it.buf = some (q % 64) := by simp [lsb?, hne, hcz]
      rw [hl]
      refine ⟨_, _, rfl, hin.symm, hne, hcz, ?_⟩
      intro j hj hqj
      rw [hat.buf j hj, hw]
      have : c ≤ it.position / 64 * 64 + j := by omega
      simp [this]
    · have hblk : it.position / 64 < q / 64 := by omega
      have hb0 : it.buf = 0#64 := by
        apply BitVec.eq_of_getLsbD_eq
        intro j hj
        rw [hat.buf j hj, hw]
        by_cases hcj : c ≤ it.position / 64 * 64 + j
        · rw [hz _ hcj (by omega)]; simp
        · simp [hcj]
      have hl : lsb? it.buf = none := lsb?_none.2 hb0
      rw [hl]
      have hqlen : q < 64 * ws.length := by
        apply Nat.lt_of_not_le; intro h'; rw [bitAt_of_ge h'] at hq; exact absurd hq (by simp)
      have hnb : (it.position + 64) / 64 = it.position / 64 + 1 := by omega
      simp only
      rw [rd_of_lt (by omega)]
      simp only
      have := ih ⟨ws, it.position + 64, ws.getD ((it.position + 64) / 64) 0⟩ ((it.position + 64) / 64 * 64) rfl
        ⟨by simp only; omega, by simp only; omega, by
          intro j hj; simp only
          rw [getLsbD_getD _ _ _ hj, Nat.mul_comm]
          have : 64 * ((it.position + 64) / 64) ≤ 64 * ((it.position + 64) / 64) + j := by omega
          simp⟩
        (by omega) (by intro i h1 h2; exact hz i (by omega) h2) (by simp only; omega)
      exact this

/-- `next()` returns the first one at or after the cursor and moves the cursor just after it. -/
theorem next_spec {it : UnaryIter} {c q : Nat} (h : it.At c) (hq : bitAt it.ws q = true) (hcq : c ≤ q)
    (hz : ∀ i, c ≤ i → i < q → bitAt it.ws i = false) :
    ∃ it', it.next = some (q, it') ∧ it'.ws = it.ws ∧ it'.position = q ∧ it'.At (q + 1) := by
  have hqlen : q < 64 * it.ws.length := by
    apply Nat.lt_of_not_le; intro h'; rw [bitAt_of_ge h'] at hq; exact absurd hq (by simp)
  obtain ⟨pos', buf', e, hp, hne, hcz, hb⟩ := nextLoop_spec q hq (it.ws.length + 1) it c rfl h hcq hz
    (by have := h.lo; omega)
  have hpq : pos' / 64 * 64 + q % 64 = q := by omega
  refine ⟨⟨it.ws, q, buf' &&& (buf' - 1#64)⟩, ?_, rfl, rfl, ⟨?_, ?_, ?_⟩⟩
  · unfold next; rw [e]
    simp only [Option.bind_eq_bind, Option.bind_some, Option.pure_def, hpq]
  · simp only; omega
  · simp only; omega
  · intro j hj
    simp only
    rw [getLsbD_clear_lsb hne, hcz, ← hp]
    by_cases hj1 : q + 1 ≤ pos' / 64 * 64 + j
    · have : j ≠ q % 64 := by omega
      rw [hb j hj (by omega)]; simp [hj1, this]
    · by_cases hj2 : j = q % 64
      · have : ¬ q + 1 ≤ q := by omega
        rw [hj2, hpq, decide_eq_false this]; simp
      · have := (ctz64_spec hne).2.2 j (by omega)
        simp [this, hj1]

open Spec in
theorem skipLoop_spec {ws : List W} {g : W → W} {f : Nat → Bool}
    (B0 : Nat) (hg : ∀ (w i : Nat), B0 < w → i < 64 → (g (ws.getD w 0)).getLsbD i = f (w * 64 + i))
    (k q : Nat) (hqlen : q < 64 * ws.length)
    (hq : f q = true) (c : Nat) (hk : rank f q = rank f c + k) :
    ∀ (fuel position : Nat) (buf : W) (skipped c' : Nat), B0 ≤ position / 64 →
      position / 64 * 64 ≤ c' → c' ≤ position / 64 * 64 + 64 →
      c' ≤ q →
      (∀ j, j < 64 → buf.getLsbD j = (decide (c' ≤ position / 64 * 64 + j) && f (position / 64 * 64 + j))) →
      skipped + rank f c = rank f c' → q / 64 < position / 64 + fuel →
      ∃ pos' buf' sk', skipLoop g ws k fuel position buf skipped = some (pos', buf', sk') ∧
        pos' / 64 = q / 64 ∧ sk' ≤ k ∧ IsSelect buf'.getLsbD (k - sk') (q % 64) ∧ k - sk' < popcount buf' ∧
        ∀ j, j < 64 → q ≤ pos' / 64 * 64 + j → buf'.getLsbD j = f (pos' / 64 * 64 + j) := by
  intro fuel
  induction fuel with
  | zero => intro position buf skipped c' _ h1 h2 h3 _ _ hf; omega
  | succ fuel ih =>
    intro position buf skipped c' hB0 hlo hhi hcq' hbuf hsk hf
    generalize hB : position / 64 * 64 = B at *
    -- number of ones of the buffer before offset t
    have hrk : ∀ t, t ≤ 64 → c' ≤ B + t → rank buf.getLsbD t + rank f c' = rank f (B + t) := by
      intro t ht hct
      have h1 : rank f (B + t) = rank f B + rank (fun i => f (B + i)) t := rank_add f B t
      have h2 : rank f c' = rank f B + rank (fun i => f (B + i)) (c' - B) := by
        have := rank_add f B (c' - B)
        rwa [show B + (c' - B) = c' by omega] at this
      have h3 : rank (fun i => f (B + i)) t = rank (fun i => f (B + i)) (c' - B) +
          rank (fun i => f (B + (c' - B + i))) (t - (c' - B)) := by
        have := rank_add (fun i => f (B + i)) (c' - B) (t - (c' - B))
        rwa [show c' - B + (t - (c' - B)) = t by omega] at this
      have h4 : rank buf.getLsbD t = rank buf.getLsbD (c' - B) +
          rank (fun i => buf.getLsbD (c' - B + i)) (t - (c' - B)) := by
        have := rank_add buf.getLsbD (c' - B) (t - (c' - B))
        rwa [show c' - B + (t - (c' - B)) = t by omega] at this
      have h5 : rank buf.getLsbD (c' - B) = 0 := by
        apply rank_false; intro i hi
        rw [hbuf i (by omega)]
        have : ¬ c' ≤ B + i := by omega
        simp [this]
      have h6 : rank (fun i => buf.getLsbD (c' - B + i)) (t - (c' - B)) =
          rank (fun i => f (B + (c' - B + i))) (t - (c' - B)) := by
        apply rank_congr; intro i hi
        rw [hbuf _ (by omega)]
        have : c' ≤ B + (c' - B + i) := by omega
        simp [this]
      omega
    unfold skipLoop
    have hpop : popcount buf + rank f c' = rank f (B + 64) := by
      rw [popcount_spec]; exact hrk 64 (by omega) hhi
    by_cases hin : q / 64 = position / 64
    · have hqB : B + q % 64 = q := by omega
      have hlt : rank f q < rank f (B + 64) := rank_lt_of_select ⟨hq, rfl⟩ (by omega)
      have hmono := rank_mono f hcq'
      rw [if_neg (by omega)]
      refine ⟨_, _, _, rfl, hin.symm, by omega, ⟨?_, ?_⟩, by omega, ?_⟩
      · rw [hbuf _ (by omega), hqB]; simp [hcq', hq]
      · have := hrk (q % 64) (by omega) (by omega)
        rw [hqB] at this; omega
      · rw [hB]; intro j hj hqj
        rw [hbuf j hj]
        have : c' ≤ B + j := by omega
        simp [this]
    · have hblk : B + 64 ≤ q := by omega
      have hmono := rank_mono f hblk
      rw [if_pos (by omega), rd_of_lt (by omega)]
      simp only
      have hnb : (position + 64) / 64 * 64 = B + 64 := by omega
      exact ih (position + 64) _ _ (B + 64) (by omega) (by omega) (by omega) hblk
        (by intro j hj; rw [hg _ _ (by omega) hj, hnb]; simp) (by omega) (by omega)

/-- `skip(k)` moves to the `k`-th one (from 0) at or after the cursor. -/
theorem skip_spec {it : UnaryIter} {c q k : Nat} (h : it.At c) (hq : bitAt it.ws q = true) (hcq : c ≤ q)
    (hk : Spec.rank (bitAt it.ws) q = Spec.rank (bitAt it.ws) c + k) :
    ∃ it', it.skip k = some it' ∧ it'.ws = it.ws ∧ it'.position = q ∧ it'.At q := by
  have hqlen : q < 64 * it.ws.length := by
    apply Nat.lt_of_not_le; intro h'; rw [bitAt_of_ge h'] at hq; exact absurd hq (by simp)
  obtain ⟨pos', buf', sk', e, hp, hsk, hsel, hlt, hb⟩ := skipLoop_spec (g := id) (f := bitAt it.ws) 0
    (by intro w i _ hi; rw [id, getLsbD_getD _ _ _ hi, Nat.mul_comm]) k q hqlen hq c hk
    (it.ws.length + 1) it.position it.buf 0 c (by omega) h.lo h.hi hcq h.buf (by omega) (by have := h.lo; omega)
  obtain ⟨p, hp1, hp2, hp3⟩ := selectInWord_spec buf' (k - sk') hlt
  have hpq : p = q % 64 := Spec.select_unique hp3 hsel
  have hpos : pos' / 64 * 64 + p = q := by omega
  refine ⟨⟨it.ws, q, buf' &&& (onesFrom p)⟩, ?_, rfl, rfl, ⟨?_, ?_, ?_⟩⟩
  · unfold skip; rw [e, Option.bind_some]; unfold skipFinish; rw [hp1, Option.map_some, hpos]; rfl
  · simp only; omega
  · simp only; omega
  · intro j hj
    simp only
    rw [BitVec.getLsbD_and, getLsbD_shl_ones, ← hp]
    by_cases hj1 : q ≤ pos' / 64 * 64 + j
    · have : p ≤ j := by omega
      rw [hb j hj hj1]; simp [hj1, this, hj]
    · have : ¬ p ≤ j := by omega
      simp [hj1, this]

/-- `skip0(k)` when the iterator sees the bits `f` from its position on: it moves to the `k`-th position
(from 0) at or after the current one where `f` is false. -/
theorem skip0_gen {it : UnaryIter} {f : Nat → Bool} {q k : Nat} (hqlen : q < 64 * it.ws.length)
    (hf : ∀ i, it.position < i → f i = bitAt it.ws i)
    (hbuf : ∀ j, j < 64 → it.position ≤ it.position / 64 * 64 + j →
      it.buf.getLsbD j = f (it.position / 64 * 64 + j))
    (hq : f q = false) (hcq : it.position ≤ q)
    (hk : Spec.rank (fun i => !f i) q = Spec.rank (fun i => !f i) it.position + k) :
    ∃ it', it.skip0 k = some it' ∧ it'.ws = it.ws ∧ it'.position = q ∧
      ∀ j, j < 64 → it'.buf.getLsbD j = (decide (q ≤ q / 64 * 64 + j) && f (q / 64 * 64 + j)) := by
  obtain ⟨pos', buf', sk', e, hp, hsk, hsel, hlt, hb⟩ := skipLoop_spec (g := fun w => ~~~w) (f := fun i => !f i)
    (ws := it.ws) (it.position / 64)
    (by intro w i hw hi
        rw [BitVec.getLsbD_not, getLsbD_getD _ _ _ hi, hf _ (by omega), Nat.mul_comm]; simp [hi])
    k q hqlen (by simp [hq]) it.position hk
    (it.ws.length + 1) it.position (~~~it.buf &&& (onesFrom (it.position % 64))) 0 it.position
    (by omega) (by omega) (by omega) hcq
    (by intro j hj
        rw [BitVec.getLsbD_and, BitVec.getLsbD_not, getLsbD_shl_ones]
        by_cases hc : it.position ≤ it.position / 64 * 64 + j
        · have : it.position % 64 ≤ j := by omega
          rw [hbuf j hj hc]
          simp [hc, this, hj]
        · have : ¬ it.position % 64 ≤ j := by omega
          simp [hc, this])
    (by omega) (by omega)
  obtain ⟨p, hp1, hp2, hp3⟩ := selectInWord_spec buf' (k - sk') hlt
  have hpq : p = q % 64 := Spec.select_unique hp3 hsel
  have hpos : pos' / 64 * 64 + p = q := by omega
  refine ⟨⟨it.ws, q, ~~~buf' &&& (onesFrom p)⟩, ?_, rfl, rfl, ?_⟩
  · unfold skip0; rw [e, Option.bind_some]; unfold skipFinish; rw [hp1, Option.map_some, hpos]
  · intro j hj
    simp only
    rw [BitVec.getLsbD_and, BitVec.getLsbD_not, getLsbD_shl_ones, ← hp]
    by_cases hj1 : q ≤ pos' / 64 * 64 + j
    · have : p ≤ j := by omega
      rw [hb j hj hj1]; simp [hj1, this, hj]
    · have : ¬ p ≤ j := by omega
      simp [hj1, this]

/-- `skip0(k)` moves to the `k`-th zero (from 0) at or after the cursor (when nothing was consumed at
the current position; see `skip0_after_next` for the other case). -/
theorem skip0_spec {it : UnaryIter} {q k : Nat} (h : it.At it.position) (hqlen : q < 64 * it.ws.length)
    (hq : bitAt it.ws q = false) (hcq : it.position ≤ q)
    (hk : Spec.rank (fun i => !bitAt it.ws i) q = Spec.rank (fun i => !bitAt it.ws i) it.position + k) :
    ∃ it', it.skip0 k = some it' ∧ it'.ws = it.ws ∧ it'.position = q ∧ it'.At q := by
  obtain ⟨it', e, hw, hp, hb⟩ := skip0_gen (f := bitAt it.ws) hqlen (fun _ _ => rfl)
    (by intro j hj hc; rw [h.buf j hj]; simp [hc]) hq hcq hk
  refine ⟨it', e, hw, hp, ⟨by omega, by omega, ?_⟩⟩
  rw [hp, hw]; exact hb

/-- `skip0(k + 1)` after a `next()` that returned position `v`: the consumed one counts as a zero, so
the iterator moves to the `k`-th zero (from 0) after `v`. -/
theorem skip0_after_next {it : UnaryIter} {q k : Nat} (h : it.At (it.position + 1))
    (hqlen : q < 64 * it.ws.length)
    (hq : bitAt it.ws q = false) (hcq : it.position < q)
    (hk : Spec.rank (fun i => !bitAt it.ws i) q = Spec.rank (fun i => !bitAt it.ws i) (it.position + 1) + k) :
    ∃ it', it.skip0 (k + 1) = some it' ∧ it'.ws = it.ws ∧ it'.position = q ∧ it'.At q := by
  have hr : ∀ m, Spec.rank (fun i => !(bitAt it.ws i && decide (i ≠ it.position))) (it.position + 1 + m) +
      Spec.rank (fun i => !bitAt it.ws i) (it.position + 1) =
      Spec.rank (fun i => !(bitAt it.ws i && decide (i ≠ it.position))) it.position + 1 +
      Spec.rank (fun i => !bitAt it.ws i) (it.position + 1 + m) := by
    intro m
    have h1 : Spec.rank (fun i => !(bitAt it.ws i && decide (i ≠ it.position))) (it.position + 1) =
        Spec.rank (fun i => !(bitAt it.ws i && decide (i ≠ it.position))) it.position + 1 := by
      rw [Spec.rank_succ]; simp
    have h2 := Spec.rank_add (fun i => !(bitAt it.ws i && decide (i ≠ it.position))) (it.position + 1) m
    have h3 := Spec.rank_add (fun i => !bitAt it.ws i) (it.position + 1) m
    have h4 : Spec.rank (fun i => !(bitAt it.ws (it.position + 1 + i) && decide (it.position + 1 + i ≠ it.position))) m =
        Spec.rank (fun i => !bitAt it.ws (it.position + 1 + i)) m := by
      apply Spec.rank_congr; intro i _
      have : it.position + 1 + i ≠ it.position := by omega
      simp [this]
    omega
  obtain ⟨it', e, hw, hp, hb⟩ := skip0_gen (f := fun i => bitAt it.ws i && decide (i ≠ it.position)) hqlen
    (by intro i hi; have : i ≠ it.position := by omega
        simp [this])
    (by intro j hj hc; rw [h.buf j hj]
        by_cases hc' : it.position / 64 * 64 + j = it.position
        · simp [hc']; omega
        · have : it.position + 1 ≤ it.position / 64 * 64 + j := by omega
          simp [hc', this])
    (by simp [hq]) (by omega) (k := k + 1)
    (by have := hr (q - (it.position + 1))
        rw [show it.position + 1 + (q - (it.position + 1)) = q by omega] at this
        omega)
  refine ⟨it', e, hw, hp, ⟨by omega, by omega, ?_⟩⟩
  rw [hp, hw]
  intro j hj
  rw [hb j hj]
  by_cases hc : q ≤ q / 64 * 64 + j
  · have : q / 64 * 64 + j ≠ it.position := by omega
    simp [hc, this]
  · simp [hc]

end UnaryIter
end Tongrams
