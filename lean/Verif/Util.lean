import Verif.Word
import Verif.Spec
import Verif.SelectTable

/-!
# include/utils/util.hpp: bit primitives
-/

namespace Tongrams

/-- `__builtin_clzll(x)` for `x ≠ 0`: number of leading zero bits (compiler builtin). -/
def clz64 (x : W) : Nat := 63 - Nat.log2 x.toNat

/-- `__builtin_ctzll(x)` for `x ≠ 0`: number of trailing zero bits (compiler builtin). -/
def ctz64 (x : W) : Nat := ((List.range 64).find? (fun i => x.getLsbD i)).getD 64

/-- `util::msb(x)`, util.hpp:443-450; `msb(0)` is `(uint8_t)(-1U) = 255`. -/
def msb (x : W) : Nat := if x = 0#64 then 255 else 63 - clz64 x

/-- `util::msb(x, ret)` = `bsr64`, util.hpp:452-463: `none` is "returns false". -/
def msb? (x : W) : Option Nat := if x = 0#64 then none else some (63 - clz64 x)

/-- `util::lsb(x, ret)`, util.hpp:465-471: `none` is "returns false". -/
def lsb? (x : W) : Option Nat := if x = 0#64 then none else some (ctz64 x)

/-- `util::lsb(x)`, util.hpp:473-478. -/
def lsb (x : W) : Nat := if x = 0#64 then 255 else ctz64 x

/-- `util::ceil_log2(x)`, util.hpp:480-482. -/
def ceilLog2 (x : W) : Nat := if 1 < x.toNat then msb (x - 1#64) + 1 else 0

/-- `util::floor_log2(x)`, util.hpp:484-486. -/
def floorLog2 (x : W) : Nat := if 1 < x.toNat then msb x else 0

/-- util.hpp:488-490. -/
def onesStep4 : W := 0x1111111111111111#64
def onesStep8 : W := 0x0101010101010101#64
def msbsStep8 : W := 0x80#64 * onesStep8

/-- `util::byte_counts(x)`, util.hpp:492-497. -/
def byteCounts (x : W) : W :=
  let x := x - ((x &&& (0xa#64 * onesStep4)) >>> 1)
  let x := (x &&& (3#64 * onesStep4)) + ((x >>> 2) &&& (3#64 * onesStep4))
  (x + (x >>> 4)) &&& (0x0f#64 * onesStep8)

/-- `util::bytes_sum(x)`, util.hpp:499-501. -/
def bytesSum (x : W) : W := (x * onesStep8) >>> 56

/-- `util::popcount(x)`, util.hpp:503-509, the portable branch. -/
def popcount (x : W) : Nat := (bytesSum (byteCounts x)).toNat

/-- `util::select_in_word(x, k)`, util.hpp:524-539, the portable branch; a shift by 64 is undefined. -/
def selectInWord (x : W) (k : Nat) : Option Nat := do
  let byteSums := byteCounts x * onesStep8
  let kStep8 := BitVec.ofNat 64 k * onesStep8
  let geqKStep8 := ((kStep8 ||| msbsStep8) - byteSums) &&& msbsStep8
  let place := popcount geqKStep8 * 8
  if 64 ≤ place then none else
  let byteRank := BitVec.ofNat 64 k - (((byteSums <<< 8) >>> place) &&& 0xFF#64)
  let t ← selectInByte ((((x >>> place) &&& 0xFF#64) ||| (byteRank <<< 8)).toNat)
  return place + t

/-- `util::ceil_div(dividend, divisor)`, util.hpp:541-545, on unbounded naturals (the code's sum
`dividend + d - 1` would wrap only beyond 2^64). -/
def ceilDiv (a d : Nat) : Nat := (a + d - 1) / d

/-- `bits::pack(packed, prob, backoff)`, util.hpp:36-43; the floats are their 32-bit patterns
(the union access writes the low four bytes on the supported little-endian machines). -/
def pack (prob backoff : BitVec 32) : W :=
  ((backoff.zeroExtend 64) <<< 32) ||| (prob.zeroExtend 64)

/-- `bits::unpack(packed, prob, backoff)`, util.hpp:45-52. -/
def unpack (packed : W) : BitVec 32 × BitVec 32 :=
  let mask : W := (1#64 <<< 32) - 1#64
  ((packed &&& mask).truncate 32, (packed >>> 32).truncate 32)

/-! ## Logarithms -/

theorem toNat_ne_zero {x : W} (h : x ≠ 0#64) : x.toNat ≠ 0 := by
  intro h'; exact h (BitVec.eq_of_toNat_eq (by simpa using h'))

theorem log2_le_63 (x : W) : Nat.log2 x.toNat ≤ 63 := by
  by_cases h : x.toNat = 0
  · rw [h]; decide
  · have := (Nat.log2_lt h (k := 64)).2 x.isLt
    omega

theorem msb_eq_log2 {x : W} (h : x ≠ 0#64) : msb x = Nat.log2 x.toNat := by
  have := log2_le_63 x
  simp only [msb, h, if_false, clz64]; omega

theorem msb?_eq {x : W} (h : x ≠ 0#64) : msb? x = some (msb x) := by simp [msb?, msb, h]

/-- `msb(x)` is the position of the highest set bit: `2^msb ≤ x < 2^(msb+1)`. -/
theorem msb_spec {x : W} (h : x ≠ 0#64) : 2 ^ msb x ≤ x.toNat ∧ x.toNat < 2 ^ (msb x + 1) := by
  rw [msb_eq_log2 h]
  exact ⟨Nat.log2_self_le (toNat_ne_zero h), Nat.lt_log2_self⟩

theorem msb_lt_64 {x : W} (h : x ≠ 0#64) : msb x < 64 := by
  rw [msb_eq_log2 h]; have := log2_le_63 x; omega

theorem msb_bit {x : W} (h : x ≠ 0#64) :
    x.getLsbD (msb x) = true ∧ ∀ j, msb x < j → x.getLsbD j = false := by
  have hs := msb_spec h
  constructor
  · rw [← BitVec.testBit_toNat]
    have : x.toNat / 2 ^ msb x = 1 := by
      have h2 : 0 < 2 ^ msb x := Nat.two_pow_pos _
      rw [Nat.pow_succ] at hs
      apply Nat.div_eq_of_lt_le <;> omega
    simp [Nat.testBit, Nat.shiftRight_eq_div_pow, this]
  · intro j hj
    exact bit_high_false hs.2 hj

theorem ceilLog2_spec (x : W) :
    x.toNat ≤ 2 ^ ceilLog2 x ∧ (1 < x.toNat → 2 ^ (ceilLog2 x - 1) < x.toNat) ∧ ceilLog2 x ≤ 64 := by
  unfold ceilLog2
  split
  case isTrue h =>
    have hm : (x - 1#64).toNat = x.toNat - 1 := by
      have := x.isLt
      rw [BitVec.toNat_sub]; simp; omega
    have hne : x - 1#64 ≠ 0#64 := by
      intro h'; rw [h'] at hm; simp at hm; omega
    have hs := msb_spec hne
    have := msb_lt_64 hne
    rw [hm] at hs
    refine ⟨by omega, fun _ => ?_, by omega⟩
    rw [Nat.add_sub_cancel]; omega
  case isFalse h => simp; omega

theorem floorLog2_spec (x : W) (h : 1 ≤ x.toNat) :
    2 ^ floorLog2 x ≤ x.toNat ∧ x.toNat < 2 ^ (floorLog2 x + 1) := by
  unfold floorLog2
  split
  case isTrue h =>
    exact msb_spec (by intro h'; rw [h'] at h; simp at h)
  case isFalse h => simp; omega

theorem floorLog2_le_63 (x : W) : floorLog2 x ≤ 63 := by
  unfold floorLog2
  split
  case isTrue h =>
    have := msb_lt_64 (x := x) (by intro h'; rw [h'] at h; simp at h)
    omega
  case isFalse h => omega

theorem ceilDiv_spec (a : Nat) {d : Nat} (hd : 0 < d) : a ≤ d * ceilDiv a d ∧ d * ceilDiv a d < a + d := by
  unfold ceilDiv
  have h1 := Nat.div_add_mod (a + d - 1) d
  have h2 := Nat.mod_lt (a + d - 1) hd
  omega

/-! ## Trailing zeros -/

theorem exists_bit {x : W} (h : x ≠ 0#64) : ∃ i, i < 64 ∧ x.getLsbD i = true := by
  exact ⟨msb x, msb_lt_64 h, (msb_bit h).1⟩

theorem ctz64_spec {x : W} (h : x ≠ 0#64) :
    ctz64 x < 64 ∧ x.getLsbD (ctz64 x) = true ∧ ∀ j, j < ctz64 x → x.getLsbD j = false := by
  obtain ⟨i, hi, hb⟩ := exists_bit h
  unfold ctz64
  cases hf : (List.range 64).find? (fun i => x.getLsbD i) with
  | none =>
    rw [List.find?_eq_none] at hf
    exact absurd hb (hf i (List.mem_range.2 hi))
  | some p =>
    rw [List.find?_range_eq_some] at hf
    obtain ⟨h1, h2, h3⟩ := hf
    refine ⟨by simpa using h2, by simpa using h1, fun j hj => ?_⟩
    simpa using h3 j (by simpa using hj)

theorem lsb?_spec {x : W} {p : Nat} (h : lsb? x = some p) :
    p < 64 ∧ x.getLsbD p = true ∧ ∀ j, j < p → x.getLsbD j = false := by
  unfold lsb? at h
  split at h
  · exact absurd h (by simp)
  · cases h; exact ctz64_spec ‹_›

theorem lsb?_none {x : W} : lsb? x = none ↔ x = 0#64 := by
  unfold lsb?; split <;> simp [*]

/-! ## pack / unpack -/

theorem unpack_pack (p b : BitVec 32) : unpack (pack p b) = (p, b) := by
  unfold unpack pack
  have hmask : (1#64 <<< 32) - 1#64 = maskOf 32 := by decide
  simp only [hmask]
  refine Prod.ext ?_ ?_
  · apply BitVec.eq_of_getLsbD_eq
    intro i hi
    simp only [BitVec.truncate_eq_setWidth, BitVec.getLsbD_setWidth, BitVec.getLsbD_and,
      BitVec.getLsbD_or, BitVec.getLsbD_shiftLeft, getLsbD_maskOf (by omega : 32 ≤ 64)]
    have : i < 64 := by omega
    simp [hi, this]
  · apply BitVec.eq_of_getLsbD_eq
    intro i hi
    simp only [BitVec.truncate_eq_setWidth, BitVec.getLsbD_setWidth, BitVec.getLsbD_ushiftRight,
      BitVec.getLsbD_or, BitVec.getLsbD_shiftLeft]
    have h1 : 32 + i < 64 := by omega
    have h2 : ¬ (32 + i < 32) := by omega
    have h3 : i < 64 := by omega
    simp [hi, h1, h3]

/-! ## Byte-wise popcount -/

/-- The number with byte `m` repeated `n` times. -/
def rep (m : Nat) : Nat → Nat
  | 0 => 0
  | n + 1 => 256 * rep m n + m

theorem and_step (q r c d : Nat) (hr : r < 256) (hd : d < 256) :
    (256 * q + r) &&& (256 * c + d) = 256 * (q &&& c) + (r &&& d) := by
  apply Nat.eq_of_testBit_eq
  intro j
  have hrd : r &&& d < 2 ^ 8 := Nat.and_lt_two_pow _ hd
  have := Nat.testBit_two_pow_mul_add q (i := 8) hr j
  have h2 := Nat.testBit_two_pow_mul_add c (i := 8) hd j
  have h3 := Nat.testBit_two_pow_mul_add (q &&& c) (i := 8) hrd j
  rw [show (2 ^ 8 : Nat) = 256 by decide] at this h2 h3
  rw [Nat.testBit_and, this, h2, h3]
  split <;> simp [Nat.testBit_and]

theorem or_step (q r c d : Nat) (hr : r < 256) (hd : d < 256) :
    (256 * q + r) ||| (256 * c + d) = 256 * (q ||| c) + (r ||| d) := by
  apply Nat.eq_of_testBit_eq
  intro j
  have hrd : r ||| d < 2 ^ 8 := Nat.or_lt_two_pow hr hd
  have := Nat.testBit_two_pow_mul_add q (i := 8) hr j
  have h2 := Nat.testBit_two_pow_mul_add c (i := 8) hd j
  have h3 := Nat.testBit_two_pow_mul_add (q ||| c) (i := 8) hrd j
  rw [show (2 ^ 8 : Nat) = 256 by decide] at this h2 h3
  rw [Nat.testBit_or, this, h2, h3]
  split <;> simp [Nat.testBit_or]

def t1 (n x : Nat) : Nat := x - (x &&& rep 0xaa n) / 2
def t2 (n x : Nat) : Nat := (x &&& rep 0x33 n) + ((x / 4) &&& rep 0x33 n)
def t3 (n x : Nat) : Nat := (x + x / 16) &&& rep 0x0f n

theorem and_aa_even (x n : Nat) : (x &&& rep 0xaa n) % 2 = 0 := by
  have h : (rep 0xaa n) % 2 = 0 := by cases n <;> simp [rep] <;> omega
  have := Nat.testBit_and x (rep 0xaa n) 0
  simp only [Nat.testBit_zero, h] at this
  rw [Nat.mod_two_eq_zero_iff_testBit_zero, Nat.testBit_zero, this]
  simp

theorem t1_step (n q r : Nat) (hr : r < 256) :
    t1 (n + 1) (256 * q + r) = 256 * t1 n q + t1 1 r := by
  have e := and_step q r (rep 0xaa n) 0xaa hr (by omega)
  have hev := and_aa_even q n
  have hle : q &&& rep 0xaa n ≤ q := Nat.and_le_left
  have hle' : r &&& 0xaa ≤ r := Nat.and_le_left
  simp only [t1, rep] at *
  rw [e]
  simp only [Nat.mul_zero, Nat.zero_add]
  omega

theorem t1_lt (n q : Nat) (h : q < 256 ^ n) : t1 n q < 256 ^ n := by unfold t1; omega

theorem dec_t2 : ∀ c, c < 4 → ∀ r, r < 64 → ((64 * c + r) &&& 0x33) = (r &&& 0x33) := by
  decide +kernel

theorem t2_step (n q r : Nat) (hr : r < 256) :
    t2 (n + 1) (256 * q + r) = 256 * t2 n q + t2 1 r := by
  have e := and_step q r (rep 0x33 n) 0x33 hr (by omega)
  have hd : (256 * q + r) / 4 = 256 * (q / 4) + (64 * (q % 4) + r / 4) := by omega
  have e2 := and_step (q / 4) (64 * (q % 4) + r / 4) (rep 0x33 n) 0x33 (by omega) (by omega)
  rw [dec_t2 (q % 4) (by omega) (r / 4) (by omega)] at e2
  simp only [t2, rep] at *
  rw [hd, e, e2]
  simp only [Nat.mul_zero, Nat.zero_add]
  omega

theorem dec_t3 : ∀ c, c < 5 → ∀ r, r < 128 → ((16 * c + r) &&& 0x0f) = (r &&& 0x0f) := by
  decide +kernel

theorem t3_step (n q r : Nat) (hr : r ≤ 0x44) (hq : q % 16 ≤ 4) :
    t3 (n + 1) (256 * q + r) = 256 * t3 n q + t3 1 r := by
  have hd : (256 * q + r) + (256 * q + r) / 16 =
      256 * (q + q / 16) + (16 * (q % 16) + (r + r / 16)) := by omega
  have e2 := and_step (q + q / 16) (16 * (q % 16) + (r + r / 16)) (rep 0x0f n) 0x0f (by omega) (by omega)
  rw [dec_t3 (q % 16) (by omega) (r + r / 16) (by omega)] at e2
  simp only [t3, rep] at *
  rw [hd, e2]

/-- popcount of one byte as computed by the three steps -/
def pc8 (r : Nat) : Nat := t3 1 (t2 1 (t1 1 r))

theorem dec_bytes : ∀ r, r < 256 →
    t1 1 r < 256 ∧ t2 1 (t1 1 r) ≤ 0x44 ∧ t2 1 (t1 1 r) % 16 ≤ 4 ∧ pc8 r ≤ 8 ∧
    pc8 r = Spec.rank (fun i => r.testBit i) 8 := by
  decide +kernel

def bc (n x : Nat) : Nat := t3 n (t2 n (t1 n x))

theorem t21_mod (n x : Nat) : t2 n (t1 n x) % 16 ≤ 4 := by
  cases n with
  | zero => simp [t1, t2, rep]
  | succ n =>
    have hx : x = 256 * (x / 256) + x % 256 := by omega
    have hr : x % 256 < 256 := by omega
    have d := dec_bytes _ hr
    rw [hx, t1_step _ _ _ hr, t2_step _ _ _ d.1]
    omega

theorem bc_step (n q r : Nat) (hr : r < 256) : bc (n + 1) (256 * q + r) = 256 * bc n q + pc8 r := by
  have d := dec_bytes _ hr
  unfold bc pc8
  rw [t1_step _ _ _ hr, t2_step _ _ _ d.1, t3_step _ _ _ d.2.1 (t21_mod _ _)]

/-- byte `i` of `x` -/
def byteN (x i : Nat) : Nat := x / 256 ^ i % 256

theorem bc_eight (x : Nat) : bc 8 x =
    pc8 (byteN x 0) + 256 * (pc8 (byteN x 1) + 256 * (pc8 (byteN x 2) + 256 * (pc8 (byteN x 3)
     + 256 * (pc8 (byteN x 4) + 256 * (pc8 (byteN x 5) + 256 * (pc8 (byteN x 6)
     + 256 * (pc8 (byteN x 7)))))))) := by
  have key : ∀ n y, bc (n + 1) y = 256 * bc n (y / 256) + pc8 (y % 256) := by
    intro n y
    have := bc_step n (y / 256) (y % 256) (by omega)
    rwa [show 256 * (y / 256) + y % 256 = y by omega] at this
  have b0 : ∀ y, bc 0 y = 0 := by intro y; simp [bc, t3, rep]
  have dv : ∀ i, x / 256 ^ i / 256 = x / 256 ^ (i + 1) := by
    intro i; rw [Nat.div_div_eq_div_mul, Nat.pow_succ]
  have e0 : x = x / 256 ^ 0 := by simp
  unfold byteN
  rw [e0, key, dv, key, dv, key, dv, key, dv, key, dv, key, dv, key, dv, key, dv, b0]
  simp only [Nat.zero_add, Nat.reduceAdd, Nat.pow_zero, Nat.div_one]
  omega

theorem byteCounts_toNat (x : W) : (byteCounts x).toNat = bc 8 x.toNat := by
  have hx := x.isLt
  unfold byteCounts bc
  have m1 : 0xa#64 * onesStep4 = BitVec.ofNat 64 (rep 0xaa 8) := by decide
  have m2 : 3#64 * onesStep4 = BitVec.ofNat 64 (rep 0x33 8) := by decide
  have m3 : 0x0f#64 * onesStep8 = BitVec.ofNat 64 (rep 0x0f 8) := by decide
  have l1 : rep 0xaa 8 < 2 ^ 64 := by decide
  have l2 : rep 0x33 8 < 2 ^ 64 := by decide
  have l3 : rep 0x0f 8 < 2 ^ 64 := by decide
  simp only [m1, m2, m3]
  have s1 : (x - ((x &&& BitVec.ofNat 64 (rep 0xaa 8)) >>> 1)).toNat = t1 8 x.toNat := by
    have h2 : x.toNat &&& rep 0xaa 8 ≤ x.toNat := Nat.and_le_left
    rw [BitVec.toNat_sub, BitVec.toNat_ushiftRight, BitVec.toNat_and, BitVec.toNat_ofNat,
      Nat.mod_eq_of_lt l1, Nat.shiftRight_eq_div_pow]
    unfold t1
    omega
  have h1 : t1 8 x.toNat < 2 ^ 64 := by unfold t1; omega
  generalize x - ((x &&& BitVec.ofNat 64 (rep 0xaa 8)) >>> 1) = y at *
  have a1 : y.toNat &&& rep 0x33 8 ≤ rep 0x33 8 := Nat.and_le_right
  have a2 : (y.toNat / 4) &&& rep 0x33 8 ≤ rep 0x33 8 := Nat.and_le_right
  have l2' : rep 0x33 8 + rep 0x33 8 < 2 ^ 63 := by decide
  have s2 : ((y &&& BitVec.ofNat 64 (rep 0x33 8)) + ((y >>> 2) &&& BitVec.ofNat 64 (rep 0x33 8))).toNat
      = t2 8 y.toNat := by
    rw [BitVec.toNat_add, BitVec.toNat_and, BitVec.toNat_and, BitVec.toNat_ushiftRight,
      BitVec.toNat_ofNat, Nat.mod_eq_of_lt l2, Nat.shiftRight_eq_div_pow, show (2 ^ 2 : Nat) = 4 from rfl]
    unfold t2
    omega
  have h2 : t2 8 y.toNat < 2 ^ 63 := by unfold t2; omega
  rw [s1] at s2 h2
  generalize (y &&& BitVec.ofNat 64 (rep 0x33 8)) + ((y >>> 2) &&& BitVec.ofNat 64 (rep 0x33 8)) = z at *
  rw [BitVec.toNat_and, BitVec.toNat_add, BitVec.toNat_ushiftRight,
      BitVec.toNat_ofNat, Nat.mod_eq_of_lt l3, Nat.shiftRight_eq_div_pow, s2]
  unfold t3
  rw [Nat.mod_eq_of_lt (by omega : t2 8 (t1 8 x.toNat) + t2 8 (t1 8 x.toNat) / 2 ^ 4 < 2 ^ 64)]

/-! ## popcount and select -/

theorem testBit_byteN (x i j : Nat) : (byteN x i).testBit j = (decide (j < 8) && x.testBit (8 * i + j)) := by
  unfold byteN
  rw [show (256 : Nat) = 2 ^ 8 from rfl, ← Nat.pow_mul, Nat.testBit_mod_two_pow,
    Nat.testBit_div_two_pow, Nat.add_comm]

/-- ones of `x` below bit `8*i` -/
def sumBytes (x : Nat) : Nat → Nat
  | 0 => 0
  | i + 1 => sumBytes x i + pc8 (byteN x i)

theorem rank_byte (x i t : Nat) (ht : t ≤ 8) :
    Spec.rank x.testBit (8 * i + t) = sumBytes x i + Spec.rank (byteN x i).testBit t := by
  have gen : ∀ i t, t ≤ 8 → Spec.rank (fun j => x.testBit (8 * i + j)) t =
      Spec.rank (byteN x i).testBit t := by
    intro i t ht
    apply Spec.rank_congr
    intro j hj
    rw [testBit_byteN]
    have : j < 8 := by omega
    simp [this]
  have base : ∀ i, Spec.rank x.testBit (8 * i) = sumBytes x i := by
    intro i
    induction i with
    | zero => rfl
    | succ i ih =>
      rw [show 8 * (i + 1) = 8 * i + 8 by omega, Spec.rank_add, ih, gen i 8 (by omega), sumBytes]
      have := (dec_bytes (byteN x i) (by unfold byteN; omega)).2.2.2.2
      rw [this]
  rw [Spec.rank_add, gen i t ht, base]

theorem byteSums_eq (x : W) : ∃ c0 c1 c2 c3 c4 c5 c6 c7 : Nat,
    (∀ i, i < 8 → pc8 (byteN x.toNat i) = [c0, c1, c2, c3, c4, c5, c6, c7].getD i 0) ∧
    c0 ≤ 8 ∧ c1 ≤ 8 ∧ c2 ≤ 8 ∧ c3 ≤ 8 ∧ c4 ≤ 8 ∧ c5 ≤ 8 ∧ c6 ≤ 8 ∧ c7 ≤ 8 ∧
    (byteCounts x * onesStep8).toNat =
      c0 + 2 ^ 8 * (c0 + c1) + 2 ^ 16 * (c0 + c1 + c2) + 2 ^ 24 * (c0 + c1 + c2 + c3) +
      2 ^ 32 * (c0 + c1 + c2 + c3 + c4) + 2 ^ 40 * (c0 + c1 + c2 + c3 + c4 + c5) +
      2 ^ 48 * (c0 + c1 + c2 + c3 + c4 + c5 + c6) +
      2 ^ 56 * (c0 + c1 + c2 + c3 + c4 + c5 + c6 + c7) := by
  have hb : ∀ i, pc8 (byteN x.toNat i) ≤ 8 := fun i =>
    (dec_bytes (byteN x.toNat i) (by unfold byteN; omega)).2.2.2.1
  refine ⟨_, _, _, _, _, _, _, _, ?_, hb 0, hb 1, hb 2, hb 3, hb 4, hb 5, hb 6, hb 7, ?_⟩
  · intro i hi
    match i, hi with
    | 0, _ | 1, _ | 2, _ | 3, _ | 4, _ | 5, _ | 6, _ | 7, _ => rfl
  · rw [BitVec.toNat_mul, byteCounts_toNat, bc_eight]
    have ho : onesStep8.toNat = 0x0101010101010101 := by decide
    rw [ho]
    have h0 := hb 0; have h1 := hb 1; have h2 := hb 2; have h3 := hb 3
    have h4 := hb 4; have h5 := hb 5; have h6 := hb 6; have h7 := hb 7
    generalize pc8 (byteN x.toNat 0) = c0 at *
    generalize pc8 (byteN x.toNat 1) = c1 at *
    generalize pc8 (byteN x.toNat 2) = c2 at *
    generalize pc8 (byteN x.toNat 3) = c3 at *
    generalize pc8 (byteN x.toNat 4) = c4 at *
    generalize pc8 (byteN x.toNat 5) = c5 at *
    generalize pc8 (byteN x.toNat 6) = c6 at *
    generalize pc8 (byteN x.toNat 7) = c7 at *
    omega

theorem rank_getLsbD (x : W) (n : Nat) : Spec.rank x.getLsbD n = Spec.rank x.toNat.testBit n := by
  apply Spec.rank_congr; intro i _; rw [BitVec.testBit_toNat]

/-- `popcount` counts the set bits. -/
theorem popcount_spec (x : W) : popcount x = Spec.rank x.getLsbD 64 := by
  obtain ⟨c0, c1, c2, c3, c4, c5, c6, c7, hc, h0, h1, h2, h3, h4, h5, h6, h7, e⟩ := byteSums_eq x
  have hr : Spec.rank x.toNat.testBit 64 = sumBytes x.toNat 8 := rank_byte x.toNat 8 0 (by omega)
  have hs : sumBytes x.toNat 8 = c0 + c1 + c2 + c3 + c4 + c5 + c6 + c7 := by
    simp only [sumBytes]
    rw [hc 0 (by omega), hc 1 (by omega), hc 2 (by omega), hc 3 (by omega), hc 4 (by omega),
      hc 5 (by omega), hc 6 (by omega), hc 7 (by omega)]
    simp only [List.getD_cons_zero, List.getD_cons_succ, Nat.zero_add]
  rw [rank_getLsbD, hr, hs]
  unfold popcount bytesSum
  rw [BitVec.toNat_ushiftRight, e, Nat.shiftRight_eq_div_pow]
  clear hs hr e hc
  omega

/-- The table holds, at index `256*r + b`, the position of the `r`-th one of byte `b` (8 if none). -/
theorem table_eq : selectInByteTable = (List.range 2048).map (fun i =>
    (((List.range 8).find? (fun p => (i % 256).testBit p &&
      decide (Spec.rank (fun j => (i % 256).testBit j) p = i / 256)))).getD 8) := by
  decide +kernel

theorem selectInByte_spec {b r : Nat} (hb : b < 256) (hr : r < Spec.rank b.testBit 8) :
    ∃ p, selectInByte (b + 256 * r) = some p ∧ p < 8 ∧ Spec.IsSelect b.testBit r p := by
  have hle := Spec.rank_le b.testBit 8
  have hlt : b + 256 * r < 2048 := by omega
  unfold selectInByte
  rw [table_eq, List.getElem?_map, List.getElem?_range hlt, Option.map_some]
  have h1 : (b + 256 * r) % 256 = b := by omega
  have h2 : (b + 256 * r) / 256 = r := by omega
  simp only [h1, h2]
  obtain ⟨p, hp, hs⟩ := Spec.exists_select hr
  cases hf : (List.range 8).find? (fun p => b.testBit p &&
      decide (Spec.rank (fun j => b.testBit j) p = r)) with
  | none =>
    rw [List.find?_eq_none] at hf
    have := hf p (List.mem_range.2 hp)
    simp [hs.1] at this
    exact absurd hs.2 this
  | some q =>
    have hq := List.find?_some hf
    have hm := List.mem_of_find?_eq_some hf
    simp only [Bool.and_eq_true, decide_eq_true_eq] at hq
    exact ⟨q, rfl, List.mem_range.1 hm, hq.1, hq.2⟩

/-- The comparison trick: byte `j` of the difference has its top bit set iff `S_j ≤ k`. -/
theorem geq_bytes (k s0 s1 s2 s3 s4 s5 s6 s7 : Nat) (hk : k < 128) (h0 : s0 ≤ 64) (h1 : s1 ≤ 64)
    (h2 : s2 ≤ 64) (h3 : s3 ≤ 64) (h4 : s4 ≤ 64) (h5 : s5 ≤ 64) (h6 : s6 ≤ 64) (h7 : s7 ≤ 64)
    (bs : W) (hbs : bs.toNat = s0 + 2 ^ 8 * s1 + 2 ^ 16 * s2 + 2 ^ 24 * s3 + 2 ^ 32 * s4 +
      2 ^ 40 * s5 + 2 ^ 48 * s6 + 2 ^ 56 * s7) :
    let f := fun s : Nat => if s ≤ k then 128 else 0
    ((((BitVec.ofNat 64 k * onesStep8) ||| msbsStep8) - bs) &&& msbsStep8).toNat =
      f s0 + 256 * (f s1 + 256 * (f s2 + 256 * (f s3 + 256 * (f s4 + 256 * (f s5 + 256 *
        (f s6 + 256 * (f s7))))))) := by
  intro f
  have ho : onesStep8.toNat = 0x0101010101010101 := by decide
  have hm : msbsStep8.toNat = 0x8080808080808080 := by decide
  have hks : (BitVec.ofNat 64 k * onesStep8).toNat = rep k 8 := by
    rw [BitVec.toNat_mul, ho, BitVec.toNat_ofNat]
    simp only [rep]; omega
  have hor1 : k ||| 128 = k + 128 := by
    have : ∀ k, k < 128 → k ||| 128 = k + 128 := by decide +kernel
    exact this k hk
  have hor : ((BitVec.ofNat 64 k * onesStep8) ||| msbsStep8).toNat = rep (k + 128) 8 := by
    rw [BitVec.toNat_or, hks, hm, show 0x8080808080808080 = rep 128 8 by decide]
    have : ∀ n, rep k n ||| rep 128 n = rep (k + 128) n := by
      intro n
      induction n with
      | zero => simp [rep]
      | succ n ih =>
        simp only [rep]
        rw [or_step _ _ _ _ (by omega) (by omega), ih, hor1]
    exact this 8
  have hsub : (((BitVec.ofNat 64 k * onesStep8) ||| msbsStep8) - bs).toNat =
      256 * (256 * (256 * (256 * (256 * (256 * (256 * (256 * 0 +
        (k + 128 - s7)) + (k + 128 - s6)) + (k + 128 - s5)) + (k + 128 - s4)) +
        (k + 128 - s3)) + (k + 128 - s2)) + (k + 128 - s1)) + (k + 128 - s0) := by
    rw [BitVec.toNat_sub, hor, hbs]
    simp only [rep]
    omega
  have hand : ∀ s, s ≤ 64 → (k + 128 - s) &&& 128 = f s := by
    intro s hs
    have d : ∀ y, y < 256 → y &&& 128 = if 128 ≤ y then 128 else 0 := by decide +kernel
    rw [d _ (by omega)]
    show _ = if s ≤ k then 128 else 0
    by_cases hsk : s ≤ k
    · rw [if_pos hsk, if_pos (by omega)]
    · rw [if_neg hsk, if_neg (by omega)]
  rw [BitVec.toNat_and, hsub, hm, show 0x8080808080808080 = 256 * (256 * (256 * (256 * (256 * (256 * (256 * (256 * 0
    + 128) + 128) + 128) + 128) + 128) + 128) + 128) + 128 by decide]
  have b : ∀ s, k + 128 - s < 256 := by intro s; omega
  rw [and_step _ _ _ _ (b _) (by omega), and_step _ _ _ _ (b _) (by omega),
    and_step _ _ _ _ (b _) (by omega), and_step _ _ _ _ (b _) (by omega),
    and_step _ _ _ _ (b _) (by omega), and_step _ _ _ _ (b _) (by omega),
    and_step _ _ _ _ (b _) (by omega), and_step _ _ _ _ (b _) (by omega),
    hand _ h0, hand _ h1, hand _ h2, hand _ h3, hand _ h4, hand _ h5, hand _ h6, hand _ h7]
  simp only [Nat.zero_and]
  omega

theorem popcount_geq (f0 f1 f2 f3 f4 f5 f6 f7 : Bool) (g : W)
    (hg : g.toNat = let f := fun b : Bool => if b then 128 else 0
      f f0 + 256 * (f f1 + 256 * (f f2 + 256 * (f f3 + 256 * (f f4 + 256 * (f f5 + 256 *
        (f f6 + 256 * (f f7)))))))) :
    popcount g = f0.toNat + f1.toNat + f2.toNat + f3.toNat + f4.toNat + f5.toNat + f6.toNat + f7.toNat := by
  have e : g = BitVec.ofNat 64 (let f := fun b : Bool => if b then 128 else 0
      f f0 + 256 * (f f1 + 256 * (f f2 + 256 * (f f3 + 256 * (f f4 + 256 * (f f5 + 256 *
        (f f6 + 256 * (f f7)))))))) := by
    rw [← hg]; simp
  subst e
  clear hg
  revert f0 f1 f2 f3 f4 f5 f6 f7
  decide +kernel

theorem place_lemma (k pl s0 s1 s2 s3 s4 s5 s6 s7 : Nat) (h0 : s0 ≤ s1) (h1 : s1 ≤ s2) (h2 : s2 ≤ s3)
    (h3 : s3 ≤ s4) (h4 : s4 ≤ s5) (h5 : s5 ≤ s6) (h7 : k < s7)
    (hpl : pl = (if s0 ≤ k then 1 else 0) + (if s1 ≤ k then 1 else 0) + (if s2 ≤ k then 1 else 0) +
      (if s3 ≤ k then 1 else 0) + (if s4 ≤ k then 1 else 0) + (if s5 ≤ k then 1 else 0) +
      (if s6 ≤ k then 1 else 0) + (if s7 ≤ k then 1 else 0)) :
    pl < 8 ∧ [0, s0, s1, s2, s3, s4, s5, s6, s7].getD pl 0 ≤ k ∧
      k < [0, s0, s1, s2, s3, s4, s5, s6, s7].getD (pl + 1) 0 := by
  by_cases g7 : s6 ≤ k
  · have e : pl = 7 := by
      rw [hpl, if_pos (by omega), if_pos (by omega), if_pos (by omega), if_pos (by omega),
        if_pos (by omega), if_pos (by omega), if_pos (by omega), if_neg (by omega)]
    subst e; exact ⟨by omega, g7, h7⟩
  by_cases g6 : s5 ≤ k
  · have e : pl = 6 := by
      rw [hpl, if_pos (by omega), if_pos (by omega), if_pos (by omega), if_pos (by omega),
        if_pos (by omega), if_pos (by omega), if_neg (by omega), if_neg (by omega)]
    subst e; exact ⟨by omega, g6, Nat.lt_of_not_le g7⟩
  by_cases g5 : s4 ≤ k
  · have e : pl = 5 := by
      rw [hpl, if_pos (by omega), if_pos (by omega), if_pos (by omega), if_pos (by omega),
        if_pos (by omega), if_neg (by omega), if_neg (by omega), if_neg (by omega)]
    subst e; exact ⟨by omega, g5, Nat.lt_of_not_le g6⟩
  by_cases g4 : s3 ≤ k
  · have e : pl = 4 := by
      rw [hpl, if_pos (by omega), if_pos (by omega), if_pos (by omega), if_pos (by omega),
        if_neg (by omega), if_neg (by omega), if_neg (by omega), if_neg (by omega)]
    subst e; exact ⟨by omega, g4, Nat.lt_of_not_le g5⟩
  by_cases g3 : s2 ≤ k
  · have e : pl = 3 := by
      rw [hpl, if_pos (by omega), if_pos (by omega), if_pos (by omega), if_neg (by omega),
        if_neg (by omega), if_neg (by omega), if_neg (by omega), if_neg (by omega)]
    subst e; exact ⟨by omega, g3, Nat.lt_of_not_le g4⟩
  by_cases g2 : s1 ≤ k
  · have e : pl = 2 := by
      rw [hpl, if_pos (by omega), if_pos (by omega), if_neg (by omega), if_neg (by omega),
        if_neg (by omega), if_neg (by omega), if_neg (by omega), if_neg (by omega)]
    subst e; exact ⟨by omega, g2, Nat.lt_of_not_le g3⟩
  by_cases g1 : s0 ≤ k
  · have e : pl = 1 := by
      rw [hpl, if_pos (by omega), if_neg (by omega), if_neg (by omega), if_neg (by omega),
        if_neg (by omega), if_neg (by omega), if_neg (by omega), if_neg (by omega)]
    subst e; exact ⟨by omega, g1, Nat.lt_of_not_le g2⟩
  · have e : pl = 0 := by
      rw [hpl, if_neg (by omega), if_neg (by omega), if_neg (by omega), if_neg (by omega),
        if_neg (by omega), if_neg (by omega), if_neg (by omega), if_neg (by omega)]
    subst e; exact ⟨by omega, Nat.zero_le _, Nat.lt_of_not_le g1⟩

/-- number with the given bytes, least significant first -/
def horner : List Nat → Nat
  | [] => 0
  | s :: l => s + 256 * horner l

theorem horner_byte (l : List Nat) (h : ∀ s ∈ l, s < 256) (i : Nat) :
    horner l / 2 ^ (i * 8) % 2 ^ 8 = l.getD i 0 := by
  induction l generalizing i with
  | nil => simp [horner]
  | cons s l ih =>
    have hs : s < 256 := h s (by simp)
    cases i with
    | zero => simp [horner]; omega
    | succ i =>
      rw [Nat.add_mul, Nat.add_comm (i * 8), Nat.pow_add, ← Nat.div_div_eq_div_mul]
      have : horner (s :: l) / 2 ^ (1 * 8) = horner l := by simp only [horner]; omega
      rw [this, ih (fun t ht => h t (by simp [ht]))]
      simp

theorem prev_lemma (s0 s1 s2 s3 s4 s5 s6 s7 : Nat) (h0 : s0 < 256) (h1 : s1 < 256)
    (h2 : s2 < 256) (h3 : s3 < 256) (h4 : s4 < 256) (h5 : s5 < 256) (h6 : s6 < 256)
    (bs : W) (hbs : bs.toNat = s0 + 2 ^ 8 * s1 + 2 ^ 16 * s2 + 2 ^ 24 * s3 + 2 ^ 32 * s4 +
      2 ^ 40 * s5 + 2 ^ 48 * s6 + 2 ^ 56 * s7) (pl : Nat) (hpl : pl < 8) :
    (((bs <<< 8) >>> (pl * 8)) &&& 0xFF#64).toNat = [0, s0, s1, s2, s3, s4, s5, s6, s7].getD pl 0 := by
  have hv : (bs <<< 8).toNat = horner [0, s0, s1, s2, s3, s4, s5, s6] := by
    rw [BitVec.toNat_shiftLeft, hbs, Nat.shiftLeft_eq]
    simp only [horner]
    omega
  rw [BitVec.toNat_and, BitVec.toNat_ushiftRight, hv, show (0xFF#64).toNat = 2 ^ 8 - 1 by decide,
    Nat.and_two_pow_sub_one_eq_mod, Nat.shiftRight_eq_div_pow, horner_byte _ (by simp; omega)]
  match pl, hpl with
  | 0, _ | 1, _ | 2, _ | 3, _ | 4, _ | 5, _ | 6, _ | 7, _ => rfl

theorem sumBytes_list (x c0 c1 c2 c3 c4 c5 c6 c7 : Nat)
    (hc : ∀ i, i < 8 → pc8 (byteN x i) = [c0, c1, c2, c3, c4, c5, c6, c7].getD i 0)
    (i : Nat) (hi : i ≤ 8) : sumBytes x i =
      [0, c0, c0 + c1, c0 + c1 + c2, c0 + c1 + c2 + c3, c0 + c1 + c2 + c3 + c4,
        c0 + c1 + c2 + c3 + c4 + c5, c0 + c1 + c2 + c3 + c4 + c5 + c6,
        c0 + c1 + c2 + c3 + c4 + c5 + c6 + c7].getD i 0 := by
  have e0 : sumBytes x 0 = 0 := rfl
  have e1 : sumBytes x 1 = c0 := by
    show sumBytes x 0 + pc8 (byteN x 0) = _; rw [e0, hc 0 (by omega)]; exact Nat.zero_add _
  have e2 : sumBytes x 2 = c0 + c1 := by
    show sumBytes x 1 + pc8 (byteN x 1) = _; rw [e1, hc 1 (by omega)]; rfl
  have e3 : sumBytes x 3 = c0 + c1 + c2 := by
    show sumBytes x 2 + pc8 (byteN x 2) = _; rw [e2, hc 2 (by omega)]; rfl
  have e4 : sumBytes x 4 = c0 + c1 + c2 + c3 := by
    show sumBytes x 3 + pc8 (byteN x 3) = _; rw [e3, hc 3 (by omega)]; rfl
  have e5 : sumBytes x 5 = c0 + c1 + c2 + c3 + c4 := by
    show sumBytes x 4 + pc8 (byteN x 4) = _; rw [e4, hc 4 (by omega)]; rfl
  have e6 : sumBytes x 6 = c0 + c1 + c2 + c3 + c4 + c5 := by
    show sumBytes x 5 + pc8 (byteN x 5) = _; rw [e5, hc 5 (by omega)]; rfl
  have e7 : sumBytes x 7 = c0 + c1 + c2 + c3 + c4 + c5 + c6 := by
    show sumBytes x 6 + pc8 (byteN x 6) = _; rw [e6, hc 6 (by omega)]; rfl
  have e8 : sumBytes x 8 = c0 + c1 + c2 + c3 + c4 + c5 + c6 + c7 := by
    show sumBytes x 7 + pc8 (byteN x 7) = _; rw [e7, hc 7 (by omega)]; rfl
  match i, hi with
  | 0, _ => exact e0
  | 1, _ => exact e1
  | 2, _ => exact e2
  | 3, _ => exact e3
  | 4, _ => exact e4
  | 5, _ => exact e5
  | 6, _ => exact e6
  | 7, _ => exact e7
  | 8, _ => exact e8

theorem toNat_decide (p : Prop) [Decidable p] : (decide p).toNat = if p then 1 else 0 := by
  by_cases h : p <;> simp [h]

/-- The byte that holds the `k`-th one, and the number of ones before it. -/
theorem place_spec (x : W) (k : Nat) (hk : k < popcount x) : ∃ pl,
    popcount (((BitVec.ofNat 64 k * onesStep8 ||| msbsStep8) - byteCounts x * onesStep8) &&&
      msbsStep8) = pl ∧ pl < 8 ∧ sumBytes x.toNat pl ≤ k ∧ k < sumBytes x.toNat (pl + 1) ∧
    ((((byteCounts x * onesStep8) <<< 8) >>> (pl * 8)) &&& 0xFF#64).toNat = sumBytes x.toNat pl := by
  rw [popcount_spec] at hk
  have hk64 : k < 64 := Nat.lt_of_lt_of_le hk (Spec.rank_le x.getLsbD 64)
  obtain ⟨c0, c1, c2, c3, c4, c5, c6, c7, hc, h0, h1, h2, h3, h4, h5, h6, h7, e⟩ := byteSums_eq x
  have hS := sumBytes_list _ _ _ _ _ _ _ _ _ hc
  have hkS : k < c0 + c1 + c2 + c3 + c4 + c5 + c6 + c7 := by
    have h8 : Spec.rank x.toNat.testBit 64 = sumBytes x.toNat 8 := rank_byte x.toNat 8 0 (by omega)
    rw [rank_getLsbD, h8, hS 8 (by omega)] at hk
    exact hk
  clear hk hc
  generalize e0 : c0 = s0 at *
  generalize e1 : s0 + c1 = s1 at *
  generalize e2 : s1 + c2 = s2 at *
  generalize e3 : s2 + c3 = s3 at *
  generalize e4 : s3 + c4 = s4 at *
  generalize e5 : s4 + c5 = s5 at *
  generalize e6 : s5 + c6 = s6 at *
  generalize e7 : s6 + c7 = s7 at *
  have b0 : s0 ≤ 64 := by omega
  have b1 : s1 ≤ 64 := by omega
  have b2 : s2 ≤ 64 := by omega
  have b3 : s3 ≤ 64 := by omega
  have b4 : s4 ≤ 64 := by omega
  have b5 : s5 ≤ 64 := by omega
  have b6 : s6 ≤ 64 := by omega
  have b7 : s7 ≤ 64 := by omega
  have hgeq := geq_bytes k s0 s1 s2 s3 s4 s5 s6 s7 (by omega) b0 b1 b2 b3 b4 b5 b6 b7 _ e
  have hprev := prev_lemma s0 s1 s2 s3 s4 s5 s6 s7 (by omega) (by omega) (by omega) (by omega)
    (by omega) (by omega) (by omega) _ e
  have hpop := popcount_geq (decide (s0 ≤ k)) (decide (s1 ≤ k)) (decide (s2 ≤ k))
    (decide (s3 ≤ k)) (decide (s4 ≤ k)) (decide (s5 ≤ k)) (decide (s6 ≤ k))
    (decide (s7 ≤ k)) _ (by simp only [decide_eq_true_eq]; exact hgeq)
  simp only [toNat_decide] at hpop
  have hpl := place_lemma k _ s0 s1 s2 s3 s4 s5 s6 s7 (by omega) (by omega) (by omega) (by omega)
    (by omega) (by omega) hkS hpop
  refine ⟨_, rfl, hpl.1, ?_, ?_, ?_⟩
  · rw [hS _ (by omega)]; exact hpl.2.1
  · rw [hS _ (by omega)]; exact hpl.2.2
  · rw [hS _ (by omega)]; exact hprev _ hpl.1

theorem byte_toNat (x : W) (pl : Nat) : ((x >>> (pl * 8)) &&& 0xFF#64).toNat = byteN x.toNat pl := by
  rw [BitVec.toNat_and, BitVec.toNat_ushiftRight, show (0xFF#64).toNat = 2 ^ 8 - 1 by decide,
    Nat.and_two_pow_sub_one_eq_mod, Nat.shiftRight_eq_div_pow]
  unfold byteN
  rw [show (256 : Nat) = 2 ^ 8 from rfl, ← Nat.pow_mul, Nat.mul_comm]

theorem byteN_lt (x i : Nat) : byteN x i < 256 := by unfold byteN; omega

theorem index_toNat (a r : W) (b : Nat) (ha : a.toNat < 256) (hr : r.toNat = b) (hb : b < 8) :
    (a ||| (r <<< 8)).toNat = a.toNat + 256 * b := by
  rw [BitVec.toNat_or, BitVec.toNat_shiftLeft, hr, Nat.shiftLeft_eq, Nat.mod_eq_of_lt (by omega)]
  have := or_step 0 a.toNat b 0 ha (by omega)
  simp only [Nat.mul_zero, Nat.zero_add, Nat.add_zero, Nat.zero_or, Nat.or_zero] at this
  rw [show (2 ^ 8 : Nat) = 256 from rfl, Nat.mul_comm b, this]
  omega

/-- `select_in_word(x, k)` is the position of the `k`-th set bit, for each word and each
`k` below the number of set bits. -/
theorem selectInWord_spec (x : W) (k : Nat) (hk : k < popcount x) :
    ∃ p, selectInWord x k = some p ∧ p < 64 ∧ Spec.IsSelect x.getLsbD k p := by
  have hk64 : k < 64 := by
    rw [popcount_spec] at hk
    exact Nat.lt_of_lt_of_le hk (Spec.rank_le x.getLsbD 64)
  obtain ⟨pl, hpl, hpl8, hlo, hhi, hprev⟩ := place_spec x k hk
  have hpc := (dec_bytes _ (byteN_lt x.toNat pl)).2.2.2.2
  have hr : k - sumBytes x.toNat pl < Spec.rank (byteN x.toNat pl).testBit 8 := by
    have e : sumBytes x.toNat (pl + 1) = sumBytes x.toNat pl + pc8 (byteN x.toNat pl) := rfl
    rw [e, hpc] at hhi
    have : Spec.rank (fun i => (byteN x.toNat pl).testBit i) 8 =
      Spec.rank (byteN x.toNat pl).testBit 8 := rfl
    omega
  have hr8 : k - sumBytes x.toNat pl < 8 := Nat.lt_of_lt_of_le hr (Spec.rank_le _ 8)
  have hbr : (BitVec.ofNat 64 k - ((((byteCounts x * onesStep8) <<< 8) >>> (pl * 8)) &&& 0xFF#64)).toNat
      = k - sumBytes x.toNat pl := by
    rw [BitVec.toNat_sub, hprev, BitVec.toNat_ofNat]
    omega
  obtain ⟨t, ht, ht8, hsel⟩ := selectInByte_spec (byteN_lt x.toNat pl) hr
  have hb := byte_toNat x pl
  refine ⟨pl * 8 + t, ?_, by omega, ?_, ?_⟩
  · unfold selectInWord
    simp only [hpl]
    rw [if_neg (show ¬ 64 ≤ pl * 8 by omega), index_toNat _ _ _ (by rw [hb]; exact byteN_lt _ _) hbr hr8, hb, ht]
    rfl
  · have := hsel.1
    rw [testBit_byteN] at this
    simp only [Bool.and_eq_true] at this
    rw [← BitVec.testBit_toNat, Nat.mul_comm]
    exact this.2
  · rw [rank_getLsbD, Nat.mul_comm, rank_byte _ _ _ (by omega), hsel.2]
    omega

end Tongrams
