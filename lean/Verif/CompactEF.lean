import Verif.EliasFano

/-!
# include/sequences/compact_elias_fano.hpp

The encoding of one partition of `uniform_pef_sequence`: high bits, low bits and (for sequences larger than the
partitions) sampled pointers, all inside one bit vector.
-/

namespace Tongrams
open BitVector

namespace CEF

/-- `pef_global_parameters`, pef_global_parameters.hpp:5-10. -/
def logSampling0 : Nat := 9
/-- pef_global_parameters.hpp:5-10. -/
def logSampling1 : Nat := 8

/-- `compact_elias_fano::offsets`, members: compact_elias_fano.hpp:38-54. -/
structure Offsets where
  univ : Nat
  n : Nat
  lowerBits : Nat
  mask : W
  higherLen : Nat
  pointerSize : Nat
  pointers0 : Nat
  pointers1 : Nat
  p0Off : Nat
  p1Off : Nat
  hOff : Nat
  lOff : Nat
  fin : Nat

/-- `lower_bits`, compact_elias_fano.hpp:22. -/
def lowerBitsOf (u n : Nat) : Nat := if u > n then msb (BitVec.ofNat 64 (u / n)) else 0

/-- `offsets(base_offset, universe, n, params)`, compact_elias_fano.hpp:15-36. -/
def offsets (base u n : Nat) : Offsets :=
  let l := lowerBitsOf u n
  let hlen := n + u / 2 ^ l + 2
  let ps := ceilLog2 (BitVec.ofNat 64 hlen)
  let p0 := (hlen - n) / 2 ^ logSampling0
  let p1 := n / 2 ^ logSampling1
  { univ := u, n := n, lowerBits := l, mask := (1#64 <<< l) - 1#64, higherLen := hlen, pointerSize := ps
    pointers0 := p0, pointers1 := p1, p0Off := base, p1Off := base + p0 * ps, hOff := base + p0 * ps + p1 * ps
    lOff := base + p0 * ps + p1 * ps + hlen, fin := base + p0 * ps + p1 * ps + hlen + n * l }

/-- The loop of `set_ptr0s`, compact_elias_fano.hpp:78-87; `ptr0` grows at every round, so `endZeros + 1`
rounds suffice. -/
def ptr0Loop (of : Offsets) (rankEnd endZeros : Nat) : Nat → Nat → BVBuilder → Option BVBuilder
  | 0, _, _ => none
  | fuel + 1, ptr0, b =>
    if ptr0 * 2 ^ logSampling0 < endZeros then
      (if ptr0 = 0 then some b
        else b.setBits (of.p0Off + (ptr0 - 1) * of.pointerSize)
          (BitVec.ofNat 64 (ptr0 * 2 ^ logSampling0 + rankEnd)) of.pointerSize).bind
        (ptr0Loop of rankEnd endZeros fuel (ptr0 + 1))
    else some b

/-- The lambda `set_ptr0s(begin, end, rank_end)`, compact_elias_fano.hpp:74-88. -/
def setPtr0s (of : Offsets) (b : BVBuilder) (beg en rankEnd : Nat) : Option BVBuilder :=
  ptr0Loop of rankEnd (en - rankEnd) (en - rankEnd + 1) (ceilDiv (beg - rankEnd) (2 ^ logSampling0)) b

/-- The pointer to the `i`-th one, compact_elias_fano.hpp:114-120. -/
def setPtr1 (of : Offsets) (b : BVBuilder) (i high : Nat) : Option BVBuilder :=
  if i ≠ 0 ∧ i % 2 ^ logSampling1 = 0 then
    b.setBits (of.p1Off + (i / 2 ^ logSampling1 - 1) * of.pointerSize) (BitVec.ofNat 64 high) of.pointerSize
  else some b

/-- The loop of `write` and its last line, compact_elias_fano.hpp:90-129; `throw` is `Except.error ()`. -/
def writeLoop (of : Offsets) : List Nat → Nat → Nat → Nat → BVBuilder → Option (Except Unit BVBuilder)
  | [], _, _, lastHigh, b => (setPtr0s of b (lastHigh + 1) of.higherLen of.n).map .ok
  | v :: vs, i, last, lastHigh, b =>
    if i ≠ 0 ∧ v < last then some (.error ())
    else
      (b.set (of.hOff + (v / 2 ^ of.lowerBits + i + 1)) true).bind fun b =>
      (b.setBits (of.lOff + i * of.lowerBits) (BitVec.ofNat 64 v &&& of.mask) of.lowerBits).bind fun b =>
      (setPtr1 of b i (v / 2 ^ of.lowerBits + i + 1)).bind fun b =>
      (setPtr0s of b (lastHigh + 1) (v / 2 ^ of.lowerBits + i + 1) i).bind fun b =>
      writeLoop of vs (i + 1) v (v / 2 ^ of.lowerBits + i + 1) b

/-- `write(bvb, begin, universe, n, params)`, compact_elias_fano.hpp:62-129. -/
def write (b : BVBuilder) (vs : List Nat) (u : Nat) : Option (Except Unit BVBuilder) :=
  let of := offsets b.size u vs.length
  writeLoop of vs 0 0 0 (b.zeroExtend (of.fin - b.size))

/-- `compact_elias_fano::enumerator`, members: compact_elias_fano.hpp:381-386 (the bit vector is a parameter
of the functions); `he = none` is the default-constructed unary iterator. -/
structure Enum where
  of : Offsets
  position : Nat
  value : Nat
  he : Option UnaryIter

namespace Enum

/-- `linear_scan_threshold`, compact_elias_fano.hpp:318. -/
def threshold : Nat := 8

/-- `enumerator(bv, offset, universe, n, params)`, compact_elias_fano.hpp:136-142. -/
def new (off u n : Nat) : Enum := { of := offsets off u n, position := n, value := u, he := none }

/-- `read_low()` at a given position, compact_elias_fano.hpp:324-328; `junk` is the memory after the vector. -/
def readLow (ws junk : List W) (of : Offsets) (pos : Nat) : Option W :=
  (getWord56 ws junk (of.lOff + pos * of.lowerBits)).map (· &&& of.mask)

/-- `((high - m_position - 1) << m_of.lower_bits) | low`, compact_elias_fano.hpp:160-163, 332-333, 353-357;
`h` is a position in the bit vector. -/
def join (of : Offsets) (h pos : Nat) (low : W) : Nat := ((h - of.hOff - pos - 1) <<< of.lowerBits) % 2 ^ 64 ||| low.toNat

/-- Read the value at `pos` with the next one of the high bits: `read_next()`, compact_elias_fano.hpp:330-334,
and `next_reader::operator()`, 351-358. -/
def readNext (ws junk : List W) (of : Offsets) (pos : Nat) (he : UnaryIter) : Option (Nat × UnaryIter) :=
  he.next.bind fun r => (readLow ws junk of pos).map fun lo => (join of r.1 pos lo, r.2)

/-- `k` calls of `he.next()`. -/
def nextTimes : Nat → UnaryIter → Option UnaryIter
  | 0, he => some he
  | k + 1, he => he.next.bind fun r => nextTimes k r.2

/-- `pointer(offset, i)`, compact_elias_fano.hpp:364-371. -/
def pointer (ws junk : List W) (of : Offsets) (off i : Nat) : Option Nat :=
  if i = 0 then some 0
  else (getWord56 ws junk (off + (i - 1) * of.pointerSize)).map fun w => (w &&& ((1#64 <<< of.pointerSize) - 1#64)).toNat

/-- `slow_move(position)`, compact_elias_fano.hpp:246-270. -/
def slowMove (ws junk : List W) (e : Enum) (p : Nat) : Option Enum :=
  if p = e.of.n then some { e with position := p, value := e.of.univ }
  else
    (if p > e.position ∧ (p - e.position) / 2 ^ logSampling1 = 0 then
        e.he.map fun he => (he, p - e.position - 1)
      else
        (pointer ws junk e.of e.of.p1Off (p / 2 ^ logSampling1)).bind fun hp =>
          (UnaryIter.new ws (e.of.hOff + hp)).map fun he => (he, p - p / 2 ^ logSampling1 * 2 ^ logSampling1)).bind fun s =>
    (s.1.skip s.2).bind fun he =>
    (readNext ws junk e.of p he).map fun r => { e with position := p, value := r.1, he := some r.2 }

/-- `move(position)`, compact_elias_fano.hpp:144-172; the returned pair is `(position, value)` of the new state. -/
def move (ws junk : List W) (e : Enum) (p : Nat) : Option Enum :=
  if p = e.position then some e
  else if p > e.position ∧ p - e.position ≤ threshold then
    if p = e.of.n then some { e with position := p, value := e.of.univ }
    else
      e.he.bind fun he => (nextTimes (p - e.position) he).bind fun he =>
        (readLow ws junk e.of p).map fun lo =>
          { e with position := p, value := join e.of he.position p lo, he := some he }
  else slowMove ws junk e p

/-- The `do .. while` loop of `next_geq`, compact_elias_fano.hpp:187-195, entered with `m_position = pos`. -/
def scanGeq (ws junk : List W) (of : Offsets) (lb : Nat) : Nat → Nat → Option UnaryIter → Option (Nat × Nat × Option UnaryIter)
  | 0, _, _ => none
  | fuel + 1, pos, he =>
    if pos + 1 < of.n then
      he.bind fun he => (readNext ws junk of (pos + 1) he).bind fun r =>
        if r.1 < lb then scanGeq ws junk of lb fuel (pos + 1) (some r.2) else some (pos + 1, r.1, some r.2)
    else some (pos + 1, of.univ, he)

/-- The `while (true)` loop of `slow_next_geq`, compact_elias_fano.hpp:304-315. -/
def slowScan (ws junk : List W) (of : Offsets) (lb : Nat) : Nat → Nat → UnaryIter → Option (Nat × Nat × UnaryIter)
  | 0, _, _ => none
  | fuel + 1, pos, he =>
    if pos = of.n then some (pos, of.univ, he)
    else (readNext ws junk of pos he).bind fun r =>
      if r.1 ≥ lb then some (pos, r.1, r.2) else slowScan ws junk of lb fuel (pos + 1) r.2

/-- `slow_next_geq(lower_bound)`, compact_elias_fano.hpp:272-316. -/
def slowNextGeq (ws junk : List W) (e : Enum) (lb : Nat) : Option Enum :=
  if lb ≥ e.of.univ then e.move ws junk e.of.n
  else
    let hlb := lb / 2 ^ e.of.lowerBits
    let cur := e.value / 2 ^ e.of.lowerBits
    (if lb > e.value ∧ (hlb - cur) / 2 ^ logSampling0 = 0 then e.he.map fun he => (he, hlb - cur)
      else
        (pointer ws junk e.of e.of.p0Off (hlb / 2 ^ logSampling0)).bind fun hp =>
          (UnaryIter.new ws (e.of.hOff + hp)).map fun he => (he, hlb - hlb / 2 ^ logSampling0 * 2 ^ logSampling0)).bind fun s =>
    (s.1.skip0 s.2).bind fun he =>
    (slowScan ws junk e.of lb (e.of.n + 1) (he.position - e.of.hOff - hlb) he).map fun r =>
      { e with position := r.1, value := r.2.1, he := some r.2.2 }

/-- `next_geq(lower_bound)`, compact_elias_fano.hpp:174-203. -/
def nextGeq (ws junk : List W) (e : Enum) (lb : Nat) : Option Enum :=
  if lb = e.value then some e
  else if lb > e.value ∧ lb / 2 ^ e.of.lowerBits - e.value / 2 ^ e.of.lowerBits ≤ threshold then
    (scanGeq ws junk e.of lb (e.of.n + 1) e.position e.he).map fun r =>
      { e with position := r.1, value := r.2.1, he := r.2.2 }
  else slowNextGeq ws junk e lb

/-- `next()`, compact_elias_fano.hpp:209-218. -/
def next (ws junk : List W) (e : Enum) : Option Enum :=
  if e.position + 1 < e.of.n then
    e.he.bind fun he => (readNext ws junk e.of (e.position + 1) he).map fun r =>
      { e with position := e.position + 1, value := r.1, he := some r.2 }
  else some { e with position := e.position + 1, value := e.of.univ }

/-- `prev_value()`, compact_elias_fano.hpp:220-239 (nothing in the library calls it). -/
def prevValue (ws junk : List W) (e : Enum) : Option Nat :=
  if e.position = 0 then some 0
  else
    (if e.position < e.of.n then e.he.bind fun he => predecessor1 ws (he.position - 1)
      else predecessor1 ws (e.of.lOff - 1)).bind fun ph =>
    (readLow ws junk e.of (e.position - 1)).map fun lo => join e.of ph (e.position - 1) lo

end Enum

/-! ## Proofs: the encoding -/

theorem lowerBitsOf_facts {u n : Nat} (hn : 0 < n) (hu : u < 2 ^ 64) :
    lowerBitsOf u n < 64 ∧ u / 2 ^ lowerBitsOf u n < 2 * n + 1 ∧ (n < u → 2 ^ lowerBitsOf u n ≤ u / n) := by
  unfold lowerBitsOf
  split
  case isTrue h =>
    have h0 : 0 < u / n := Nat.div_pos (by omega) hn
    have hle : u / n ≤ u := Nat.div_le_self _ _
    have ht : (BitVec.ofNat 64 (u / n)).toNat = u / n := by
      rw [BitVec.toNat_ofNat, Nat.mod_eq_of_lt (by omega)]
    have hne : BitVec.ofNat 64 (u / n) ≠ 0#64 := by
      intro h'; rw [h'] at ht; simp at ht; omega
    have hs := msb_spec hne
    rw [ht] at hs
    refine ⟨msb_lt_64 hne, ?_, fun _ => hs.1⟩
    generalize msb (BitVec.ofNat 64 (u / n)) = l at *
    have h1 : u / 2 ^ l < 2 * n := by
      rw [Nat.div_lt_iff_lt_mul (Nat.pow_pos (by omega))]
      have h2 : u < (u / n + 1) * n := by
        have := Nat.div_add_mod u n
        have := Nat.mod_lt u hn
        rw [Nat.add_mul, Nat.one_mul, Nat.mul_comm]; omega
      have h3 : (u / n + 1) * n ≤ 2 ^ (l + 1) * n := Nat.mul_le_mul_right _ hs.2
      have h4 : 2 ^ (l + 1) * n = 2 * n * 2 ^ l := by rw [Nat.pow_succ]; ac_rfl
      omega
    omega
  case isFalse h =>
    refine ⟨by omega, ?_, fun h' => absurd h' h⟩
    rw [Nat.pow_zero, Nat.div_one]; omega

/-- Offset, from the start of the encoding, of the `k`-th one. -/
def hp (vs : List Nat) (l k : Nat) : Nat := vs.getD k 0 / 2 ^ l + k + 1

/-- `ws` contains, from bit `off` on, the high bits (`hlen` of them) and the `l` low bits of each value of `vs`. -/
structure Bits (ws : List W) (off hlen l : Nat) (vs : List Nat) : Prop where
  ones : ∀ x, x < hlen → (bitAt ws (off + x) = true ↔ ∃ k, k < vs.length ∧ x = hp vs l k)
  lows : ∀ k, k < vs.length → ∀ j, j < l → bitAt ws (off + hlen + k * l + j) = (vs.getD k 0).testBit j

/-- The pointers to every 256-th one and to every 512-th zero (`z` zeros in all), in fields of `ps` bits. -/
def Ptr1 (ws : List W) (p1Off ps l : Nat) (vs : List Nat) (i : Nat) : Prop :=
  ∀ k, 0 < k → k * 2 ^ logSampling1 < i → ∀ j, j < ps → bitAt ws (p1Off + (k - 1) * ps + j) = (hp vs l (k * 2 ^ logSampling1)).testBit j

/-- `c` values have a high part smaller than `z`. -/
def Below (vs : List Nat) (l z c : Nat) : Prop :=
  c ≤ vs.length ∧ (∀ k, k < c → vs.getD k 0 / 2 ^ l < z) ∧ ∀ k, c ≤ k → k < vs.length → z ≤ vs.getD k 0 / 2 ^ l

/-- The pointers to the zeros numbered below `z`. -/
def Ptr0 (ws : List W) (p0Off ps l : Nat) (vs : List Nat) (z : Nat) : Prop :=
  ∀ k, 0 < k → k * 2 ^ logSampling0 < z → ∃ c, Below vs l (k * 2 ^ logSampling0) c ∧
    ∀ j, j < ps → bitAt ws (p0Off + (k - 1) * ps + j) = (k * 2 ^ logSampling0 + c).testBit j

structure WInv (ho u : Nat) (vs : List Nat) (l i : Nat) (b : BVBuilder) : Prop where
  wf : b.WF
  sz : b.size = ho + (vs.length + u / 2 ^ l + 2) + vs.length * l
  ones : ∀ x, x < vs.length + u / 2 ^ l + 2 → (bitAt b.bits (ho + x) = true ↔ ∃ k, k < i ∧ x = hp vs l k)
  lows : ∀ k, k < i → ∀ j, j < l → bitAt b.bits (ho + (vs.length + u / 2 ^ l + 2) + k * l + j) = (vs.getD k 0).testBit j

theorem WInv.frame {ho u : Nat} {vs : List Nat} {l i : Nat} {b b' : BVBuilder} (h : WInv ho u vs l i b) (w : b'.WF)
    (hs : b'.size = b.size) (hx : ∀ x, ho ≤ x → bitAt b'.bits x = bitAt b.bits x) : WInv ho u vs l i b' := by
  refine ⟨w, by rw [hs, h.sz], fun x h' => ?_, fun k hk j hj => ?_⟩
  · rw [hx _ (by omega)]; exact h.ones x h'
  · rw [hx _ (by generalize k * l = m; generalize u / 2 ^ l = q; omega)]; exact h.lows k hk j hj

theorem mul_fit {k m ps : Nat} (h0 : 0 < k) (h : k ≤ m) : (k - 1) * ps + ps ≤ m * ps := by
  have := Nat.mul_le_mul_right ps (show k - 1 + 1 ≤ m by omega)
  rw [Nat.succ_mul] at this; exact this

theorem field_disj {k k' ps j : Nat} (h0 : 0 < k) (h0' : 0 < k') (hne : k' ≠ k) (hj : j < ps) :
    ¬ ((k - 1) * ps ≤ (k' - 1) * ps + j ∧ (k' - 1) * ps + j < (k - 1) * ps + ps) := by
  rcases Nat.lt_or_ge k' k with h | h
  · have := Nat.mul_le_mul_right ps (show k' - 1 + 1 ≤ k - 1 by omega)
    rw [Nat.succ_mul] at this; omega
  · have := Nat.mul_le_mul_right ps (show k - 1 + 1 ≤ k' - 1 by omega)
    rw [Nat.succ_mul] at this; omega

theorem zeroExtend_bits {b : BVBuilder} (h : b.WF) (n : Nat) :
    (b.zeroExtend n).WF ∧ (b.zeroExtend n).size = b.size + n ∧ ∀ i, bitAt (b.zeroExtend n).bits i = bitAt b.bits i := by
  obtain ⟨w, t⟩ := BVBuilder.zeroExtend_wf h n
  refine ⟨w, ?_, fun i => ?_⟩
  · rw [← BVBuilder.length_toBools, t, List.length_append, BVBuilder.length_toBools, List.length_replicate]
  · rw [w.bitAt, h.bitAt, t, List.getD_eq_getElem?_getD, List.getD_eq_getElem?_getD, List.getElem?_append]
    split
    · rfl
    · rename_i hi
      rw [List.getElem?_eq_none (l := b.toBools) (by omega)]
      by_cases hn : i - b.toBools.length < n
      · rw [List.getElem?_replicate, if_pos hn]; rfl
      · rw [List.getElem?_replicate, if_neg hn]

theorem setBits_bits' {b : BVBuilder} (h : b.WF) {pos len : Nat} {v : W} (hlen : len ≤ 64)
    (hp : pos + len ≤ b.size) (hv : v.toNat < 2 ^ len) :
    ∃ b', b.setBits pos v len = some b' ∧ b'.WF ∧ b'.size = b.size ∧
      ∀ i, bitAt b'.bits i = if pos ≤ i ∧ i < pos + len then v.getLsbD (i - pos) else bitAt b.bits i := by
  by_cases h0 : len = 0
  · subst h0
    refine ⟨b, by simp [BVBuilder.setBits], h, rfl, fun i => ?_⟩
    rw [if_neg (by omega)]
  · exact BVBuilder.setBits_bits h (by omega) hlen hp hv

theorem writeStep {ho u : Nat} {vs : List Nat} {l i : Nat} {b : BVBuilder} (h : WInv ho u vs l i b)
    (hl : l < 64) (hi : i < vs.length) (hv : vs.getD i 0 / 2 ^ l ≤ u / 2 ^ l) {v : Nat} (hvi : vs.getD i 0 = v) :
    ∃ b1 b2, b.set (ho + (v / 2 ^ l + i + 1)) true = some b1 ∧
      b1.setBits (ho + (vs.length + u / 2 ^ l + 2) + i * l) (BitVec.ofNat 64 v &&& ((1#64 <<< l) - 1#64)) l = some b2 ∧
      WInv ho u vs l (i + 1) b2 ∧ b2.size = b.size ∧ ∀ x, x < ho → bitAt b2.bits x = bitAt b.bits x := by
  rw [hvi] at hv
  have hx : v / 2 ^ l + i + 1 < vs.length + u / 2 ^ l + 2 := by omega
  have hmul : i * l + l ≤ vs.length * l := by
    have := Nat.mul_le_mul_right l (show i + 1 ≤ vs.length from hi)
    rw [Nat.succ_mul] at this; exact this
  have hsz := h.sz
  generalize hL : vs.length + u / 2 ^ l + 2 = hlen at *
  obtain ⟨b1, e1, w1, s1, g1⟩ := BVBuilder.set_bits h.wf (pos := ho + (v / 2 ^ l + i + 1)) (by omega) true
  obtain ⟨lt, lb⟩ := EF.low_toNat v hl
  obtain ⟨b2, e2, w2, s2, g2⟩ := setBits_bits' w1 (pos := ho + hlen + i * l) (len := l) (by omega)
    (by omega) lt
  have keyones := h.ones
  have keylows := h.lows
  rw [hL] at keyones keylows
  refine ⟨b1, b2, e1, e2, ⟨w2, by rw [s2, s1, h.sz, hL], ?_, ?_⟩, by rw [s2, s1], ?_⟩
  · intro x hx'
    rw [hL] at hx'
    rw [g2, if_neg (by omega), g1]
    by_cases he : x = v / 2 ^ l + i + 1
    · subst he
      rw [if_pos rfl]
      exact ⟨fun _ => ⟨i, by omega, by unfold hp; rw [hvi]⟩, fun _ => rfl⟩
    · rw [if_neg (by omega), keyones x hx']
      constructor
      · rintro ⟨k, hk, e⟩; exact ⟨k, by omega, e⟩
      · rintro ⟨k, hk, e⟩
        rcases Nat.lt_or_ge k i with h' | h'
        · exact ⟨k, h', e⟩
        · have : k = i := by omega
          subst this; unfold hp at e; rw [hvi] at e; exact absurd e he
  · intro k hk j hj
    rw [hL, g2]
    rcases Nat.lt_or_ge k i with h' | h'
    · have : k * l + l ≤ i * l := by
        have := Nat.mul_le_mul_right l (show k + 1 ≤ i from h')
        rw [Nat.succ_mul] at this; exact this
      rw [if_neg (by omega), g1, if_neg (by omega), keylows k h' j hj]
    · have : k = i := by omega
      subst this
      rw [if_pos (by omega), show ho + hlen + k * l + j - (ho + hlen + k * l) = j by omega, lb j hj, hvi]
  · intro x hx'
    rw [g2, if_neg (by omega), g1, if_neg]
    generalize v / 2 ^ l = d at *
    omega

/-- The layout of the offsets. -/
structure Lay (of : Offsets) (base u n l ho ps : Nat) : Prop where
  fn : of.n = n
  fl : of.lowerBits = l
  fm : of.mask = (1#64 <<< l) - 1#64
  fh : of.higherLen = n + u / 2 ^ l + 2
  fps : of.pointerSize = ps
  fp0 : of.p0Off = base
  fp1 : of.p1Off = base + ((u / 2 ^ l + 2) / 2 ^ logSampling0) * ps
  fho : of.hOff = ho
  fhh : ho = of.p1Off + (n / 2 ^ logSampling1) * ps
  flo : of.lOff = ho + (n + u / 2 ^ l + 2)
  ffin : of.fin = ho + (n + u / 2 ^ l + 2) + n * l

theorem lay (base u n : Nat) : Lay (offsets base u n) base u n (lowerBitsOf u n) (offsets base u n).hOff (offsets base u n).pointerSize := by
  refine ⟨rfl, rfl, rfl, rfl, rfl, rfl, ?_, rfl, ?_, rfl, rfl⟩
  · show base + _ = _
    simp only [offsets]
    generalize u / 2 ^ lowerBitsOf u n = z
    rw [show n + z + 2 - n = z + 2 by omega]
  · show (offsets base u n).hOff = _
    simp only [offsets]

theorem fieldBits {v ps : Nat} (hps : ps ≤ 64) (hv : v < 2 ^ ps) :
    (BitVec.ofNat 64 v).toNat < 2 ^ ps ∧ ∀ j, j < ps → (BitVec.ofNat 64 v).getLsbD j = v.testBit j := by
  have h64 : v < 2 ^ 64 := Nat.lt_of_lt_of_le hv (Nat.pow_le_pow_right (by omega) hps)
  have : (BitVec.ofNat 64 v).toNat = v := by rw [BitVec.toNat_ofNat, Nat.mod_eq_of_lt h64]
  refine ⟨by rw [this]; exact hv, fun j _ => ?_⟩
  rw [← BitVec.testBit_toNat, this]

theorem setPtr1_ok {of : Offsets} {base u : Nat} {vs : List Nat} {l ho ps : Nat} (L : Lay of base u vs.length l ho ps) {i : Nat} {b : BVBuilder}
    (hb : b.WF) (hsz : ho ≤ b.size) (h : Ptr1 b.bits of.p1Off ps l vs i) (hi : i < vs.length) (hps : ps ≤ 64) (hv : hp vs l i < 2 ^ ps) :
    ∃ b', setPtr1 of b i (hp vs l i) = some b' ∧ b'.WF ∧ b'.size = b.size ∧ Ptr1 b'.bits of.p1Off ps l vs (i + 1) ∧
      ∀ x, x < of.p1Off ∨ ho ≤ x → bitAt b'.bits x = bitAt b.bits x := by
  unfold setPtr1
  by_cases hc : i ≠ 0 ∧ i % 2 ^ logSampling1 = 0
  · rw [if_pos hc, L.fps]
    obtain ⟨f1, f2⟩ := fieldBits hps hv
    have hdm : i / 2 ^ logSampling1 * 2 ^ logSampling1 = i := by unfold logSampling1 at *; omega
    have hk0 : 0 < i / 2 ^ logSampling1 := by unfold logSampling1 at *; omega
    have hle : i / 2 ^ logSampling1 ≤ vs.length / 2 ^ logSampling1 := Nat.div_le_div_right (by omega)
    have hfit := mul_fit (ps := ps) hk0 hle
    have hh := L.fhh
    generalize i / 2 ^ logSampling1 = q at *
    obtain ⟨b', e, w, s', g⟩ := setBits_bits' hb (pos := of.p1Off + (q - 1) * ps) (len := ps) hps (by omega) f1
    refine ⟨b', e, w, s', ?_, ?_⟩
    · intro k hk hki j hj
      rw [g]
      by_cases hkq : k = q
      · subst hkq
        rw [if_pos (by omega), show of.p1Off + (k - 1) * ps + j - (of.p1Off + (k - 1) * ps) = j by omega, f2 j hj, hdm]
      · rw [if_neg (by have := field_disj (ps := ps) (j := j) hk0 hk hkq hj; omega)]
        refine h k hk ?_ j hj
        apply Nat.lt_of_le_of_ne (by omega)
        intro h'
        rw [← hdm] at h'
        exact hkq (Nat.eq_of_mul_eq_mul_right (Nat.pow_pos (by omega)) h')
    · intro x hx
      rw [g, if_neg (by omega)]
  · rw [if_neg hc]
    refine ⟨b, rfl, hb, rfl, ?_, fun _ _ => rfl⟩
    intro k hk hki j hj
    refine h k hk ?_ j hj
    apply Nat.lt_of_le_of_ne (by omega)
    intro h'
    apply hc
    rw [← h']
    refine ⟨?_, Nat.mul_mod_left _ _⟩
    have := Nat.mul_pos hk (show 0 < 2 ^ logSampling1 from Nat.pow_pos (by omega))
    omega

theorem ptr0Loop_ok {of : Offsets} {base u : Nat} {vs : List Nat} {l ho ps : Nat} (L : Lay of base u vs.length l ho ps) {r ez : Nat}
    (hez : ez ≤ u / 2 ^ l + 2) (hps : ps ≤ 64) (hlen : vs.length + u / 2 ^ l + 2 ≤ 2 ^ ps) {z0 : Nat}
    (hbel : ∀ z, z0 ≤ z → z < ez → Below vs l z r) :
    ∀ (fuel ptr : Nat) (b : BVBuilder), b.WF → ho ≤ b.size → 0 < ptr → z0 ≤ ptr * 2 ^ logSampling0 → 0 < fuel → ez < ptr * 2 ^ logSampling0 + fuel →
      (∀ k, 0 < k → k * 2 ^ logSampling0 < ez → k < ptr → ∃ c, Below vs l (k * 2 ^ logSampling0) c ∧
        ∀ j, j < ps → bitAt b.bits (of.p0Off + (k - 1) * ps + j) = (k * 2 ^ logSampling0 + c).testBit j) →
      ∃ b', ptr0Loop of r ez fuel ptr b = some b' ∧ b'.WF ∧ b'.size = b.size ∧ Ptr0 b'.bits of.p0Off ps l vs ez ∧
        ∀ x, x < base ∨ of.p1Off ≤ x → bitAt b'.bits x = bitAt b.bits x := by
  intro fuel
  induction fuel with
  | zero => intro ptr b _ _ _ _ h0; omega
  | succ fuel ih =>
    intro ptr b hb hsz h0 hz _ hf hP
    rw [ptr0Loop]
    by_cases hc : ptr * 2 ^ logSampling0 < ez
    · rw [if_pos hc, if_neg (by omega), L.fps]
      have hB := hbel _ hz hc
      obtain ⟨f1, f2⟩ := fieldBits (v := ptr * 2 ^ logSampling0 + r) hps (by have := hB.1; omega)
      have hle : ptr ≤ (u / 2 ^ l + 2) / 2 ^ logSampling0 := (Nat.le_div_iff_mul_le (Nat.pow_pos (by omega))).2 (by omega)
      have hfit := mul_fit (ps := ps) h0 hle
      have hh := L.fhh
      have hp1 := L.fp1
      have hp0 := L.fp0
      generalize hq : (u / 2 ^ l + 2) / 2 ^ logSampling0 = q at *
      have hnn := Nat.zero_le (vs.length / 2 ^ logSampling1 * ps)
      obtain ⟨b', e, w, s', g⟩ := setBits_bits' hb (pos := of.p0Off + (ptr - 1) * ps) (len := ps) hps (by omega) f1
      rw [e, Option.bind_some]
      have hpow : (ptr + 1) * 2 ^ logSampling0 = ptr * 2 ^ logSampling0 + 2 ^ logSampling0 := Nat.succ_mul _ _
      have hge : 1 ≤ 2 ^ logSampling0 := Nat.pow_pos (by omega)
      obtain ⟨b2, e2, w2, s2, P2, x2⟩ := ih (ptr + 1) b' w (by omega) (by omega) (by omega) (by omega) (by omega) (by
        intro k hk hke hkp
        by_cases hkq : k = ptr
        · subst hkq
          refine ⟨r, hB, fun j hj => ?_⟩
          rw [g, if_pos (by omega), show of.p0Off + (k - 1) * ps + j - (of.p0Off + (k - 1) * ps) = j by omega, f2 j hj]
        · obtain ⟨c, hc1, hc2⟩ := hP k hk hke (by omega)
          refine ⟨c, hc1, fun j hj => ?_⟩
          rw [g, if_neg (by have := field_disj (ps := ps) (j := j) h0 hk hkq hj; omega), hc2 j hj])
      refine ⟨b2, e2, w2, by rw [s2, s'], P2, fun x hx => ?_⟩
      rw [x2 x hx, g, if_neg (by omega)]
    · rw [if_neg hc]
      refine ⟨b, rfl, hb, rfl, ?_, fun _ _ => rfl⟩
      intro k hk hke
      refine hP k hk hke ?_
      apply Nat.lt_of_not_le; intro h'
      have := Nat.mul_le_mul_right (2 ^ logSampling0) h'
      omega

theorem setPtr0s_ok {of : Offsets} {base u : Nat} {vs : List Nat} {l ho ps : Nat} (L : Lay of base u vs.length l ho ps) {beg en r : Nat} {b : BVBuilder}
    (hb : b.WF) (hsz : ho ≤ b.size) (hbeg : r < beg) (hez : en - r ≤ u / 2 ^ l + 2) (hps : ps ≤ 64)
    (hlen : vs.length + u / 2 ^ l + 2 ≤ 2 ^ ps) (hbel : ∀ z, beg - r ≤ z → z < en - r → Below vs l z r)
    (h : Ptr0 b.bits of.p0Off ps l vs (beg - r)) :
    ∃ b', setPtr0s of b beg en r = some b' ∧ b'.WF ∧ b'.size = b.size ∧ Ptr0 b'.bits of.p0Off ps l vs (en - r) ∧
        ∀ x, x < base ∨ of.p1Off ≤ x → bitAt b'.bits x = bitAt b.bits x := by
  unfold setPtr0s
  have hc1 : beg - r ≤ ceilDiv (beg - r) (2 ^ logSampling0) * 2 ^ logSampling0 := by
    unfold ceilDiv logSampling0; omega
  have hc2 : ∀ k, k * 2 ^ logSampling0 < en - r → k < ceilDiv (beg - r) (2 ^ logSampling0) → k * 2 ^ logSampling0 < beg - r := by
    intro k _; unfold ceilDiv logSampling0; omega
  have hc0 : 0 < ceilDiv (beg - r) (2 ^ logSampling0) := by
    unfold ceilDiv logSampling0; omega
  generalize ceilDiv (beg - r) (2 ^ logSampling0) = q at *
  exact ptr0Loop_ok L hez hps hlen hbel _ q b hb hsz hc0 hc1 (by omega) (by omega) (fun k hk hke hkq => h k hk (hc2 k hke hkq))

/-- The encoding of `vs`, high bits at `ho`, pointers where the layout puts them. -/
structure Enc (ws : List W) (of : Offsets) (vs : List Nat) (u l ho ps : Nat) : Prop where
  bits : Bits ws ho (vs.length + u / 2 ^ l + 2) l vs
  ptr1 : Ptr1 ws of.p1Off ps l vs vs.length
  ptr0 : Ptr0 ws of.p0Off ps l vs (u / 2 ^ l + 2)

theorem below_gap {vs : List Nat} (hs : Spec.Sorted vs) {l z i : Nat} (hi : i ≤ vs.length) (h1 : 0 < i → vs.getD (i - 1) 0 / 2 ^ l < z)
    (h2 : i < vs.length → z ≤ vs.getD i 0 / 2 ^ l) : Below vs l z i := by
  refine ⟨hi, fun k hk => ?_, fun k h3 h4 => ?_⟩
  · have := Nat.div_le_div_right (c := 2 ^ l) (EF.sorted_getD hs (show k ≤ i - 1 by omega) (by omega))
    have := h1 (by omega); omega
  · have := Nat.div_le_div_right (c := 2 ^ l) (EF.sorted_getD hs h3 h4)
    have := h2 (by omega); omega

theorem writeLoop_ok {base u : Nat} {vs : List Nat} {l ho ps : Nat} {of : Offsets} (L : Lay of base u vs.length l ho ps) (hl : l < 64)
    (hps : ps ≤ 64) (hlen : vs.length + u / 2 ^ l + 2 ≤ 2 ^ ps) (hv : ∀ v ∈ vs, v ≤ u) (hs : Spec.Sorted vs) :
    ∀ (ws pre : List Nat) (last lastHigh : Nat) (b : BVBuilder), vs = pre ++ ws →
      WInv ho u vs l pre.length b → Ptr1 b.bits of.p1Off ps l vs pre.length → Ptr0 b.bits of.p0Off ps l vs (lastHigh + 1 - pre.length) →
      (0 < pre.length → pre.getLast? = some last ∧ lastHigh = hp vs l (pre.length - 1)) → (pre.length = 0 → lastHigh = 0) →
      ∃ b', writeLoop of ws pre.length last lastHigh b = some (.ok b') ∧ WInv ho u vs l vs.length b' ∧
        Enc b'.bits of vs u l ho ps ∧ ∀ x, x < base → bitAt b'.bits x = bitAt b.bits x := by
  intro ws
  have hbase : base ≤ of.p1Off ∧ of.p1Off ≤ ho := by
    refine ⟨by rw [L.fp1]; exact Nat.le_add_right _ _, by rw [L.fhh]; exact Nat.le_add_right _ _⟩
  have hhi : ∀ k, k < vs.length → vs.getD k 0 / 2 ^ l ≤ u / 2 ^ l := fun k hk => Nat.div_le_div_right (hv _ (EF.getD_mem hk))
  have hzn := Nat.zero_le (u / 2 ^ l)
  induction ws with
  | nil =>
    intro pre last lastHigh b hvs h h1 h0 hlast hempty
    rw [List.append_nil] at hvs; subst hvs
    have hfacts : vs.length ≤ lastHigh ∧ lastHigh + 1 ≤ vs.length + u / 2 ^ l + 2 ∧
        (0 < vs.length → vs.getD (vs.length - 1) 0 / 2 ^ l < lastHigh + 1 - vs.length) := by
      rcases Nat.eq_zero_or_pos vs.length with h' | h'
      · have := hempty h'; omega
      · have e := (hlast h').2
        have hzn' := Nat.zero_le (vs.getD (vs.length - 1) 0 / 2 ^ l)
        have := hhi (vs.length - 1) (by omega)
        unfold hp at e; omega
    obtain ⟨b', e, w, s', P, fr⟩ := setPtr0s_ok L (beg := lastHigh + 1) (en := of.higherLen) (r := vs.length) h.wf (by rw [h.sz]; omega) (by omega)
      (by rw [L.fh]; omega) hps hlen
      (fun z hz1 hz2 => below_gap hs (Nat.le_refl _) (fun h' => by have := hfacts.2.2 h'; omega) (fun h' => absurd h' (Nat.lt_irrefl _))) h0
    have hw := h.frame w s' (fun x hx => fr x (by omega))
    rw [writeLoop, L.fn, e]
    refine ⟨b', rfl, hw, ⟨⟨hw.ones, hw.lows⟩, ?_, ?_⟩, fun x hx => fr x (by omega)⟩
    · intro k hk hki j hj
      rw [fr _ (by omega)]; exact h1 k hk hki j hj
    · rw [L.fh, show vs.length + u / 2 ^ l + 2 - vs.length = u / 2 ^ l + 2 by omega] at P; exact P
  | cons v ws ih =>
    intro pre last lastHigh b hvs h h1 h0 hlast hempty
    have hln : pre.length < vs.length := by rw [hvs]; simp
    have hvi : vs.getD pre.length 0 = v := by rw [hvs]; simp
    have hmem : v ∈ vs := by rw [hvs]; simp
    have hdv := Nat.div_le_div_right (c := 2 ^ l) (hv v hmem)
    have hzv := Nat.zero_le (v / 2 ^ l)
    have hns : ¬ (pre.length ≠ 0 ∧ v < last) := by
      rintro ⟨h0, hlt⟩
      have hm : last ∈ pre := List.mem_of_getLast? (hlast (by omega)).1
      have := (List.pairwise_append.1 (hvs ▸ hs)).2.2 last hm v (by simp)
      omega
    have hhp : hp vs l pre.length = v / 2 ^ l + pre.length + 1 := by unfold hp; rw [hvi]
    obtain ⟨b1, b2, e1, e2, h2, s2, fr2⟩ := writeStep h hl hln (by rw [hvi]; exact hdv) hvi
    have hsz := h.sz
    obtain ⟨b3, e3, w3, s3, P3, fr3⟩ := setPtr1_ok L (i := pre.length) (b := b2) h2.wf (by omega)
      (fun k hk hki j hj => by
        have := L.fhh
        have hle := mul_fit (ps := ps) hk (show k ≤ vs.length / 2 ^ logSampling1 from
          (Nat.le_div_iff_mul_le (Nat.pow_pos (by omega))).2 (by omega))
        rw [fr2 _ (by omega)]; exact h1 k hk hki j hj)
      hln hps (by rw [hhp]; omega)
    have hfacts : pre.length ≤ lastHigh ∧ lastHigh + 1 ≤ v / 2 ^ l + pre.length + 1 ∧
        (0 < pre.length → vs.getD (pre.length - 1) 0 / 2 ^ l < lastHigh + 1 - pre.length) := by
      rcases Nat.eq_zero_or_pos pre.length with h' | h'
      · have := hempty h'; omega
      · have e := (hlast h').2
        have hzn' := Nat.zero_le (vs.getD (pre.length - 1) 0 / 2 ^ l)
        have := Nat.div_le_div_right (c := 2 ^ l) (EF.sorted_getD hs (show pre.length - 1 ≤ pre.length by omega) hln)
        rw [hvi] at this
        unfold hp at e; omega
    obtain ⟨b4, e4, w4, s4, P4, fr4⟩ := setPtr0s_ok L (beg := lastHigh + 1) (en := v / 2 ^ l + pre.length + 1) (r := pre.length) (b := b3) w3 (by omega)
      (by omega) (by omega) hps hlen
      (fun z hz1 hz2 => below_gap hs (by omega) (fun h' => by have := hfacts.2.2 h'; omega) (fun h' => by rw [hvi]; omega))
      (fun k hk hkz => by
        obtain ⟨c, c1, c2⟩ := h0 k hk hkz
        refine ⟨c, c1, fun j hj => ?_⟩
        have hle := mul_fit (ps := ps) hk (show k ≤ (u / 2 ^ l + 2) / 2 ^ logSampling0 from
          (Nat.le_div_iff_mul_le (Nat.pow_pos (by omega))).2 (by omega))
        have := L.fp1
        have := L.fp0
        rw [fr3 _ (by omega), fr2 _ (by omega), c2 j hj])
    rw [writeLoop, if_neg hns, L.fho, L.flo, L.fl, L.fm, e1, Option.bind_some, e2, Option.bind_some, ← hhp, e3, Option.bind_some, hhp, e4, Option.bind_some]
    have h3 := h2.frame w3 s3 (fun x hx => fr3 x (by omega))
    have h4 := h3.frame w4 s4 (fun x hx => fr4 x (by omega))
    obtain ⟨b', e', h', E', fr'⟩ := ih (pre ++ [v]) v (v / 2 ^ l + pre.length + 1) b4 (by rw [hvs]; simp) (by simpa using h4)
      (by
        rw [List.length_append, List.length_singleton]
        intro k hk hki j hj
        rw [fr4 _ (by omega)]; exact P3 k hk hki j hj)
      (by rw [List.length_append, List.length_singleton, show v / 2 ^ l + pre.length + 1 + 1 - (pre.length + 1) = v / 2 ^ l + pre.length + 1 - pre.length by omega]; exact P4)
      (fun _ => ⟨by simp, by rw [List.length_append, List.length_singleton, Nat.add_sub_cancel, hhp]⟩) (by simp)
    refine ⟨b', by simpa using e', h', E', fun x hx => ?_⟩
    rw [fr' x hx, fr4 x (by omega), fr3 x (by omega), fr2 x (by omega)]

/-- The pointer size of an encoding of at most `2^55` values. -/
theorem pointerSize_facts {base u n : Nat} (hn : 0 < n) (hn' : n ≤ 2 ^ 55) (hu : u < 2 ^ 64) :
    (offsets base u n).pointerSize ≤ 57 ∧ n + u / 2 ^ lowerBitsOf u n + 2 ≤ 2 ^ (offsets base u n).pointerSize := by
  have hf := (lowerBitsOf_facts hn hu).2.1
  show ceilLog2 (BitVec.ofNat 64 (n + u / 2 ^ lowerBitsOf u n + 2)) ≤ 57 ∧ _ ≤ 2 ^ ceilLog2 (BitVec.ofNat 64 (n + u / 2 ^ lowerBitsOf u n + 2))
  generalize u / 2 ^ lowerBitsOf u n = z at *
  have ht : (BitVec.ofNat 64 (n + z + 2)).toNat = n + z + 2 := by rw [BitVec.toNat_ofNat, Nat.mod_eq_of_lt (by omega)]
  obtain ⟨c1, c2, c3⟩ := ceilLog2_spec (BitVec.ofNat 64 (n + z + 2))
  rw [ht] at c1 c2
  refine ⟨?_, c1⟩
  have c4 := c2 (by omega)
  have : ceilLog2 (BitVec.ofNat 64 (n + z + 2)) - 1 < 57 := (Nat.pow_lt_pow_iff_right (by omega : 1 < 2)).1 (by omega)
  omega

/-- Writing a sorted list succeeds and appends its encoding to the builder. -/
theorem write_any {b0 : BVBuilder} (hb : b0.WF) {u : Nat} {vs : List Nat} (hn : 0 < vs.length) (hn' : vs.length ≤ 2 ^ 55)
    (hu : u < 2 ^ 64) (hv : ∀ v ∈ vs, v ≤ u) (hs : Spec.Sorted vs) :
    ∃ b', write b0 vs u = some (.ok b') ∧ b'.WF ∧ b'.size = (offsets b0.size u vs.length).fin ∧
      (∀ x, x < b0.size → bitAt b'.bits x = bitAt b0.bits x) ∧
      Enc b'.bits (offsets b0.size u vs.length) vs u (lowerBitsOf u vs.length) (offsets b0.size u vs.length).hOff
        (offsets b0.size u vs.length).pointerSize := by
  have hl := (lowerBitsOf_facts hn hu).1
  obtain ⟨hp1, hp2⟩ := pointerSize_facts (base := b0.size) hn hn' hu
  have L := lay b0.size u vs.length
  obtain ⟨w, s, g⟩ := zeroExtend_bits hb ((offsets b0.size u vs.length).fin - b0.size)
  have hho : b0.size ≤ (offsets b0.size u vs.length).hOff := by
    rw [L.fhh, L.fp1, Nat.add_assoc]; exact Nat.le_add_right _ _
  have hfin := L.ffin
  have hfin' : b0.size ≤ (offsets b0.size u vs.length).fin := by rw [hfin, Nat.add_assoc]; exact Nat.le_trans hho (Nat.le_add_right _ _)
  obtain ⟨b', e, h, E, fr⟩ := writeLoop_ok L hl (by omega) hp2 hv hs vs [] 0 0
    (b0.zeroExtend ((offsets b0.size u vs.length).fin - b0.size)) (by simp) ⟨w, by rw [s, ← L.ffin]; omega, by
      intro x hx
      rw [g, hb.high _ (by omega)]
      simp, by intro k hk; simp at hk⟩
    (by intro k _ hk; simp at hk)
    (by intro k hk hkz; simp only [List.length_nil] at hkz; have := Nat.mul_pos hk (show 0 < 2 ^ logSampling0 from Nat.pow_pos (by omega)); omega)
    (by simp) (by simp)
  exact ⟨b', e, h.wf, by rw [h.sz, L.ffin], fun x hx => by rw [fr x hx, g], E⟩

/-- No pointers are stored when a partition is small. -/
theorem offsets_small {base u n : Nat} (hn' : n < 2 ^ 8) (hz : u / 2 ^ lowerBitsOf u n + 2 < 2 ^ 9) :
    (offsets base u n).hOff = base ∧
    (offsets base u n).fin = base + (n + u / 2 ^ lowerBitsOf u n + 2) + n * lowerBitsOf u n := by
  have h0 : (n + u / 2 ^ lowerBitsOf u n + 2 - n) / 2 ^ logSampling0 = 0 := by
    apply Nat.div_eq_of_lt; unfold logSampling0; omega
  have h1 : n / 2 ^ logSampling1 = 0 := Nat.div_eq_of_lt hn'
  simp only [offsets, h0, h1, Nat.zero_mul, Nat.add_zero, and_self]

/-- Writing a small sorted partition succeeds and appends its encoding to the builder. -/
theorem write_ok {b0 : BVBuilder} (hb : b0.WF) {u : Nat} {vs : List Nat} (hn : 0 < vs.length) (hn' : vs.length ≤ 2 ^ 7)
    (hu : u < 2 ^ 64) (hv : ∀ v ∈ vs, v ≤ u) (hs : Spec.Sorted vs) :
    ∃ b', write b0 vs u = some (.ok b') ∧ b'.WF ∧
      b'.size = b0.size + (vs.length + u / 2 ^ lowerBitsOf u vs.length + 2) + vs.length * lowerBitsOf u vs.length ∧
      (∀ x, x < b0.size → bitAt b'.bits x = bitAt b0.bits x) ∧
      Bits b'.bits b0.size (vs.length + u / 2 ^ lowerBitsOf u vs.length + 2) (lowerBitsOf u vs.length) vs := by
  have hf := (lowerBitsOf_facts hn hu).2.1
  obtain ⟨o1, o2⟩ := offsets_small (base := b0.size) (u := u) (n := vs.length) (by omega) (by omega)
  obtain ⟨b', e, w, s, k, E⟩ := write_any hb hn (by omega) hu hv hs
  exact ⟨b', e, w, by rw [s, o2], k, by rw [← o1]; exact E.bits⟩

/-! ## Proofs: the enumerator -/

theorem getWord56_le {ws junk : List W} (hj : junk ≠ []) {pos : Nat} (h : pos ≤ 64 * ws.length) :
    ∃ x, getWord56 ws junk pos = some x ∧ ∀ j, pos % 8 + j < 64 → x.getLsbD j = bitAt (ws ++ junk) (pos + j) := by
  by_cases he : pos = 64 * ws.length
  · have hjl : 0 < junk.length := List.length_pos_iff.2 hj
    unfold getWord56
    simp only
    rw [if_pos (by omega), rd_of_lt (by rw [List.length_append]; omega)]
    refine ⟨_, rfl, fun j hj => ?_⟩
    rw [BitVec.getLsbD_ushiftRight, getLsbD_getD _ _ _ hj]; congr 1; omega
  · exact getWord56_spec hj (by omega)

/-- The encoding of `vs` as the reader with universe `u` expects it. -/
structure Ctx (ws : List W) (base off u : Nat) (vs : List Nat) : Prop where
  pos : 0 < vs.length
  l57 : lowerBitsOf u vs.length ≤ 57
  hof : (offsets base u vs.length).hOff = off
  psz : (offsets base u vs.length).pointerSize ≤ 57
  len : vs.length + u / 2 ^ lowerBitsOf u vs.length + 2 ≤ 2 ^ (offsets base u vs.length).pointerSize
  bits : Bits ws off (vs.length + u / 2 ^ lowerBitsOf u vs.length + 2) (lowerBitsOf u vs.length) vs
  ptr1 : Ptr1 ws (offsets base u vs.length).p1Off (offsets base u vs.length).pointerSize (lowerBitsOf u vs.length) vs vs.length
  ptr0 : Ptr0 ws (offsets base u vs.length).p0Off (offsets base u vs.length).pointerSize (lowerBitsOf u vs.length) vs (u / 2 ^ lowerBitsOf u vs.length + 2)
  fit : off + (vs.length + u / 2 ^ lowerBitsOf u vs.length + 2) + vs.length * lowerBitsOf u vs.length ≤ 64 * ws.length
  sorted : Spec.Sorted vs
  high : ∀ v ∈ vs, v / 2 ^ lowerBitsOf u vs.length ≤ u / 2 ^ lowerBitsOf u vs.length
  bound : ∀ v ∈ vs, v < 2 ^ 64

/-- A small partition has no pointers. -/
theorem Ctx.of_small {ws : List W} {off u : Nat} {vs : List Nat} (pos : 0 < vs.length) (small : vs.length < 2 ^ 8)
    (zeros : u / 2 ^ lowerBitsOf u vs.length + 2 < 2 ^ 9) (l57 : lowerBitsOf u vs.length ≤ 57)
    (bits : Bits ws off (vs.length + u / 2 ^ lowerBitsOf u vs.length + 2) (lowerBitsOf u vs.length) vs)
    (fit : off + (vs.length + u / 2 ^ lowerBitsOf u vs.length + 2) + vs.length * lowerBitsOf u vs.length ≤ 64 * ws.length)
    (sorted : Spec.Sorted vs) (high : ∀ v ∈ vs, v / 2 ^ lowerBitsOf u vs.length ≤ u / 2 ^ lowerBitsOf u vs.length)
    (bound : ∀ v ∈ vs, v < 2 ^ 64) (hu : u < 2 ^ 64) : Ctx ws off off u vs := by
  obtain ⟨h1, h2⟩ := pointerSize_facts (base := off) pos (by omega) hu
  refine ⟨pos, l57, (offsets_small small zeros).1, h1, h2, bits, ?_, ?_, fit, sorted, high, bound⟩
  · intro k hk hki
    have := Nat.mul_le_mul_right (2 ^ logSampling1) hk
    unfold logSampling1 at *; omega
  · intro k hk hki
    have := Nat.mul_le_mul_right (2 ^ logSampling0) hk
    unfold logSampling0 at *; omega

/-- The encoding just written, whatever is appended after it. -/
theorem Ctx.of_enc {ws : List W} {base u : Nat} {vs : List Nat} (hn : 0 < vs.length) (hn' : vs.length ≤ 2 ^ 55) (hu : u ≤ 2 ^ 57)
    (hv : ∀ v ∈ vs, v ≤ u) (hs : Spec.Sorted vs) (hfit : (offsets base u vs.length).fin ≤ 64 * ws.length)
    (E : Enc ws (offsets base u vs.length) vs u (lowerBitsOf u vs.length) (offsets base u vs.length).hOff (offsets base u vs.length).pointerSize) :
    Ctx ws base (offsets base u vs.length).hOff u vs := by
  obtain ⟨h1, h2⟩ := pointerSize_facts (base := base) hn hn' (u := u) (by omega)
  refine ⟨hn, ?_, rfl, h1, h2, E.bits, E.ptr1, E.ptr0, ?_, hs, fun v h => Nat.div_le_div_right (hv v h), fun v h => by have := hv v h; omega⟩
  · obtain ⟨-, -, h⟩ := lowerBitsOf_facts hn (u := u) (by omega)
    by_cases h' : vs.length < u
    · have h3 := h h'
      have h4 := Nat.div_le_self u vs.length
      exact (Nat.pow_le_pow_iff_right (by omega : 1 < 2)).1 (by omega : 2 ^ lowerBitsOf u vs.length ≤ 2 ^ 57)
    · unfold lowerBitsOf; rw [if_neg (by omega)]; omega
  · rw [← (lay base u vs.length).ffin]; exact hfit

theorem hp_strict {vs : List Nat} (h : Spec.Sorted vs) (l : Nat) {i j : Nat} (hij : i < j) (hj : j < vs.length) :
    hp vs l i < hp vs l j := by
  have := EF.hpos_mono h l hij hj
  unfold EF.hpos at this; unfold hp; omega

namespace Ctx
variable {ws : List W} {base off u : Nat} {vs : List Nat}

theorem hp_lt (c : Ctx ws base off u vs) {k : Nat} (hk : k < vs.length) :
    hp vs (lowerBitsOf u vs.length) k + 1 < vs.length + u / 2 ^ lowerBitsOf u vs.length + 2 := by
  have := c.high _ (EF.getD_mem hk)
  unfold hp; omega

theorem one (c : Ctx ws base off u vs) {k : Nat} (hk : k < vs.length) :
    bitAt ws (off + hp vs (lowerBitsOf u vs.length) k) = true :=
  (c.bits.ones _ (by have := c.hp_lt hk; omega)).2 ⟨k, hk, rfl⟩

/-- No ones between the ones of two consecutive values. -/
theorem gap (c : Ctx ws base off u vs) {k x0 : Nat} (hk : k < vs.length)
    (h0 : k = 0 ∨ hp vs (lowerBitsOf u vs.length) (k - 1) < x0) :
    ∀ i, off + x0 ≤ i → i < off + hp vs (lowerBitsOf u vs.length) k → bitAt ws i = false := by
  intro i h1 h2
  apply Bool.eq_false_iff.2
  intro hb
  have hlt := c.hp_lt hk
  obtain ⟨x, rfl⟩ : ∃ x, i = off + x := ⟨i - off, by omega⟩
  obtain ⟨k', hk', e⟩ := (c.bits.ones x (by omega)).1 hb
  rcases Nat.lt_trichotomy k' k with h | h | h
  · rcases h0 with h0 | h0
    · omega
    · rcases Nat.eq_or_lt_of_le (show k' ≤ k - 1 by omega) with h3 | h3
      · subst h3; omega
      · have := hp_strict c.sorted (lowerBitsOf u vs.length) h3 (by omega); omega
  · subst h; omega
  · have := hp_strict c.sorted (lowerBitsOf u vs.length) h hk'; omega

theorem rank_at (c : Ctx ws base off u vs) : ∀ (x m : Nat), x ≤ vs.length + u / 2 ^ lowerBitsOf u vs.length + 2 → m ≤ vs.length →
    (∀ k, k < m → hp vs (lowerBitsOf u vs.length) k < x) →
    (∀ k, m ≤ k → k < vs.length → x ≤ hp vs (lowerBitsOf u vs.length) k) →
    Spec.rank (bitAt ws) (off + x) = Spec.rank (bitAt ws) off + m := by
  intro x
  induction x with
  | zero =>
    intro m _ _ h1 _
    rcases Nat.eq_zero_or_pos m with h0 | h0
    · subst h0; rfl
    · have := h1 0 h0; omega
  | succ x ih =>
    intro m hx hm h1 h2
    rw [← Nat.add_assoc, Spec.rank_succ]
    by_cases hb : bitAt ws (off + x) = true
    · obtain ⟨k, hk, e⟩ := (c.bits.ones x (by omega)).1 hb
      have hkm : k < m := by
        apply Nat.lt_of_not_le; intro h; have := h2 k h hk; omega
      have hmk : m = k + 1 := by
        apply Nat.le_antisymm _ hkm
        apply Nat.le_of_not_lt; intro h
        have h3 := h1 (k + 1) h
        have h4 := hp_strict c.sorted (lowerBitsOf u vs.length) (Nat.lt_succ_self k) (show k + 1 < vs.length by omega)
        have h5 : hp vs (lowerBitsOf u vs.length) k.succ = hp vs (lowerBitsOf u vs.length) (k + 1) := rfl
        omega
      subst hmk
      rw [if_pos hb, ih k (by omega) (by omega) ?_ ?_, Nat.add_assoc]
      · intro k' hk'; rw [e]; exact hp_strict c.sorted _ hk' hk
      · intro k' hk1 hk2
        rcases Nat.eq_or_lt_of_le hk1 with h | h
        · subst h; omega
        · have := hp_strict c.sorted (lowerBitsOf u vs.length) h hk2; omega
    · rw [if_neg hb, Nat.add_zero]
      apply ih m (by omega) hm
      · intro k hk
        have h3 := h1 k hk
        have : hp vs (lowerBitsOf u vs.length) k ≠ x := by
          intro e; apply hb; rw [← e]; exact c.one (by omega)
        omega
      · intro k hk1 hk2; have := h2 k hk1 hk2; omega

theorem rank_one (c : Ctx ws base off u vs) {k : Nat} (hk : k < vs.length) :
    Spec.rank (bitAt ws) (off + hp vs (lowerBitsOf u vs.length) k) = Spec.rank (bitAt ws) off + k := by
  apply c.rank_at _ _ (by have := c.hp_lt hk; omega) (by omega)
  · intro k' hk'; exact hp_strict c.sorted _ hk' hk
  · intro k' h1 h2
    rcases Nat.eq_or_lt_of_le h1 with h | h
    · subst h; exact Nat.le_refl _
    · exact Nat.le_of_lt (hp_strict c.sorted _ h h2)

theorem ofs (c : Ctx ws base off u vs) : (offsets base u vs.length).hOff = off ∧
    (offsets base u vs.length).lOff = off + (vs.length + u / 2 ^ lowerBitsOf u vs.length + 2) := by
  have := (lay base u vs.length).flo
  rw [c.hof] at this
  exact ⟨c.hof, this⟩

theorem pointer_spec (c : Ctx ws base off u vs) {junk : List W} (hj : junk ≠ []) {o k v : Nat} (hk : 0 < k)
    (hfit : o + (k - 1) * (offsets base u vs.length).pointerSize + (offsets base u vs.length).pointerSize ≤ 64 * ws.length)
    (hv : v < vs.length + u / 2 ^ lowerBitsOf u vs.length + 2)
    (h : ∀ j, j < (offsets base u vs.length).pointerSize → bitAt ws (o + (k - 1) * (offsets base u vs.length).pointerSize + j) = v.testBit j) :
    Enum.pointer ws junk (offsets base u vs.length) o k = some v := by
  have hps := c.psz
  have hlen := c.len
  unfold Enum.pointer
  rw [if_neg (by omega)]
  generalize (offsets base u vs.length).pointerSize = ps at *
  have hm : (1#64 <<< ps) - 1#64 = maskOf ps := by unfold maskOf; rw [if_neg (by omega)]
  obtain ⟨x, ex, hx⟩ := getWord56_le hj (ws := ws) (pos := o + (k - 1) * ps) (by omega)
  rw [ex, Option.map_some, hm]
  congr 1
  apply Nat.eq_of_testBit_eq
  intro j
  rw [BitVec.testBit_toNat, BitVec.getLsbD_and, getLsbD_maskOf (by omega)]
  by_cases hjl : j < ps
  · rw [hx j (by omega), ← h j hjl, bitAt_append_left _ (by omega)]
    simp [hjl]
  · rw [Nat.testBit_lt_two_pow (Nat.lt_of_lt_of_le (Nat.lt_of_lt_of_le hv hlen) (Nat.pow_le_pow_right (by omega) (by omega)))]
    simp [hjl]

theorem pointer1_spec (c : Ctx ws base off u vs) {junk : List W} (hj : junk ≠ []) {k : Nat} (hk : 0 < k) (hkn : k * 2 ^ logSampling1 < vs.length) :
    Enum.pointer ws junk (offsets base u vs.length) (offsets base u vs.length).p1Off k =
      some (hp vs (lowerBitsOf u vs.length) (k * 2 ^ logSampling1)) := by
  have hfit := c.fit
  have L := lay base u vs.length
  have hle := mul_fit (ps := (offsets base u vs.length).pointerSize) hk (show k ≤ vs.length / 2 ^ logSampling1 from
    (Nat.le_div_iff_mul_le (Nat.pow_pos (by omega))).2 (by omega))
  have h1 := L.fhh
  rw [c.hof] at h1
  have := Nat.zero_le (u / 2 ^ lowerBitsOf u vs.length)
  refine c.pointer_spec hj hk (by omega) (by have := c.hp_lt hkn; omega) (c.ptr1 k hk hkn)

theorem pointer0_spec (c : Ctx ws base off u vs) {junk : List W} (hj : junk ≠ []) {k : Nat} (hk : 0 < k)
    (hkn : k * 2 ^ logSampling0 < u / 2 ^ lowerBitsOf u vs.length + 2) :
    ∃ n, Below vs (lowerBitsOf u vs.length) (k * 2 ^ logSampling0) n ∧
      Enum.pointer ws junk (offsets base u vs.length) (offsets base u vs.length).p0Off k = some (k * 2 ^ logSampling0 + n) := by
  have hfit := c.fit
  have L := lay base u vs.length
  have hle := mul_fit (ps := (offsets base u vs.length).pointerSize) hk
    (show k ≤ (u / 2 ^ lowerBitsOf u vs.length + 2) / 2 ^ logSampling0 from
    (Nat.le_div_iff_mul_le (Nat.pow_pos (by omega))).2 (by omega))
  have h1 := L.fhh
  rw [c.hof] at h1
  have h2 := L.fp1
  have h3 := L.fp0
  have := Nat.zero_le (u / 2 ^ lowerBitsOf u vs.length)
  have h4 := Nat.zero_le (vs.length / 2 ^ logSampling1 * (offsets base u vs.length).pointerSize)
  obtain ⟨n, hn1, hn2⟩ := c.ptr0 k hk hkn
  have := hn1.1
  exact ⟨n, hn1, c.pointer_spec hj hk (by omega) (by omega) hn2⟩

theorem readLow_spec (c : Ctx ws base off u vs) {junk : List W} (hj : junk ≠ []) {k : Nat} (hk : k < vs.length) :
    ∃ x, Enum.readLow ws junk (offsets base u vs.length) k = some x ∧
      ∀ j, x.toNat.testBit j = (decide (j < lowerBitsOf u vs.length) && (vs.getD k 0).testBit j) := by
  have hl := c.l57
  have hfit := c.fit
  have hlow := c.bits.lows k hk
  unfold Enum.readLow
  rw [c.ofs.2]
  show ∃ x, (getWord56 ws junk (_ + k * lowerBitsOf u vs.length)).map (· &&& ((1#64 <<< lowerBitsOf u vs.length) - 1#64)) = some x ∧ _
  have hm : (1#64 <<< lowerBitsOf u vs.length) - 1#64 = maskOf (lowerBitsOf u vs.length) := by
    unfold maskOf; rw [if_neg (by omega)]
  rw [hm]
  generalize lowerBitsOf u vs.length = l at *
  have hmul : k * l + l ≤ vs.length * l := by
    have := Nat.mul_le_mul_right l (show k + 1 ≤ vs.length from hk)
    rw [Nat.succ_mul] at this; exact this
  generalize vs.length + u / 2 ^ l + 2 = hlen at *
  obtain ⟨x, ex, hx⟩ := getWord56_le hj (ws := ws) (pos := off + hlen + k * l) (by omega)
  refine ⟨_, by rw [ex, Option.map_some], fun j => ?_⟩
  rw [BitVec.testBit_toNat, BitVec.getLsbD_and, getLsbD_maskOf (by omega)]
  by_cases hjl : j < l
  · rw [hx j (by omega), ← hlow j hjl, bitAt_append_left _ (by omega)]
    simp [hjl]
  · simp [hjl]

/-- The cursor stands just after the one of value `k`. -/
def Cursor (ws : List W) (off u : Nat) (vs : List Nat) (he : UnaryIter) (k : Nat) : Prop :=
  he.ws = ws ∧ he.position = off + hp vs (lowerBitsOf u vs.length) k ∧ he.At (off + hp vs (lowerBitsOf u vs.length) k + 1)

theorem readNext_spec (c : Ctx ws base off u vs) {junk : List W} (hj : junk ≠ []) {k x0 : Nat} (hk : k < vs.length) {he : UnaryIter}
    (hw : he.ws = ws) (hat : he.At (off + x0)) (hx0 : x0 ≤ hp vs (lowerBitsOf u vs.length) k)
    (h0 : k = 0 ∨ hp vs (lowerBitsOf u vs.length) (k - 1) < x0) :
    ∃ he', Enum.readNext ws junk (offsets base u vs.length) k he = some (vs.getD k 0, he') ∧ Cursor ws off u vs he' k := by
  obtain ⟨he', e, w', p', a'⟩ := UnaryIter.next_spec (q := off + hp vs (lowerBitsOf u vs.length) k) hat
    (by rw [hw]; exact c.one hk) (by omega) (by rw [hw]; exact c.gap hk h0)
  obtain ⟨x, ex, hx⟩ := c.readLow_spec hj hk
  refine ⟨he', ?_, by rw [w', hw], p', a'⟩
  unfold Enum.readNext
  rw [e, Option.bind_some]
  simp only
  rw [ex, Option.map_some]
  unfold Enum.join
  rw [c.ofs.1]
  have h1 : off + hp vs (lowerBitsOf u vs.length) k - off - k - 1 = vs.getD k 0 / 2 ^ lowerBitsOf u vs.length := by
    unfold hp; generalize vs.getD k 0 / 2 ^ lowerBitsOf u vs.length = d; omega
  rw [h1]
  show some (((vs.getD k 0 / 2 ^ lowerBitsOf u vs.length) <<< lowerBitsOf u vs.length) % 2 ^ 64 ||| x.toNat, he') = _
  rw [EF.join_eq (c.bound _ (EF.getD_mem hk)) hx]

theorem readNext_cursor (c : Ctx ws base off u vs) {junk : List W} (hj : junk ≠ []) {k : Nat} (hk : k + 1 < vs.length) {he : UnaryIter}
    (h : Cursor ws off u vs he k) :
    ∃ he', Enum.readNext ws junk (offsets base u vs.length) (k + 1) he = some (vs.getD (k + 1) 0, he') ∧
      Cursor ws off u vs he' (k + 1) := by
  refine c.readNext_spec hj hk h.1 (x0 := hp vs (lowerBitsOf u vs.length) k + 1) h.2.2 ?_ ?_
  · exact hp_strict c.sorted _ (Nat.lt_succ_self k) hk
  · right; simp

theorem next_cursor (c : Ctx ws base off u vs) {k : Nat} (hk : k + 1 < vs.length) {he : UnaryIter}
    (h : Cursor ws off u vs he k) :
    ∃ he', he.next = some (off + hp vs (lowerBitsOf u vs.length) (k + 1), he') ∧ Cursor ws off u vs he' (k + 1) := by
  have := hp_strict c.sorted (lowerBitsOf u vs.length) (Nat.lt_succ_self k) hk
  obtain ⟨he', e, w', p', a'⟩ := UnaryIter.next_spec (q := off + hp vs (lowerBitsOf u vs.length) (k + 1)) h.2.2
    (by rw [h.1]; exact c.one hk) (by simp only [Nat.succ_eq_add_one] at this; omega)
    (by rw [h.1]; exact c.gap (x0 := hp vs (lowerBitsOf u vs.length) k + 1) hk (by right; simp))
  exact ⟨he', e, by rw [w', h.1], p', a'⟩

theorem nextTimes_spec (c : Ctx ws base off u vs) (m : Nat) : ∀ {k : Nat} {he : UnaryIter}, k + m < vs.length →
    Cursor ws off u vs he k → ∃ he', Enum.nextTimes m he = some he' ∧ Cursor ws off u vs he' (k + m) := by
  induction m with
  | zero => intro k he _ h; exact ⟨he, rfl, h⟩
  | succ m ih =>
    intro k he hk h
    obtain ⟨he1, e1, h1⟩ := c.next_cursor (by omega) h
    obtain ⟨he2, e2, h2⟩ := ih (by omega) h1
    refine ⟨he2, ?_, by rw [show k + (m + 1) = k + 1 + m by omega]; exact h2⟩
    rw [Enum.nextTimes, e1, Option.bind_some]; exact e2

end Ctx

/-- The state of an enumerator over `vs`: at position `p` with the value there, or at the end (or after it:
`next_geq` does not stop `m_position` at `size()`). -/
structure EInv (ws : List W) (base off u : Nat) (vs : List Nat) (e : Enum) : Prop where
  of : e.of = offsets base u vs.length
  value : e.value = if e.position < vs.length then vs.getD e.position 0 else u
  he : e.position < vs.length → ∃ he, e.he = some he ∧ Ctx.Cursor ws off u vs he e.position

theorem new_inv (ws : List W) (base off u : Nat) (vs : List Nat) : EInv ws base off u vs (Enum.new base u vs.length) :=
  ⟨rfl, by simp [Enum.new], fun h => by simp [Enum.new] at h⟩

namespace Ctx
variable {ws : List W} {base off u : Nat} {vs : List Nat}

theorem end_inv {e : Enum} (h : EInv ws base off u vs e) :
    EInv ws base off u vs { e with position := vs.length, value := e.of.univ } :=
  ⟨h.of, by simp only; rw [if_neg (Nat.lt_irrefl _), h.of]; rfl, fun h => absurd h (Nat.lt_irrefl _)⟩

theorem at_inv {e : Enum} (h : EInv ws base off u vs e) {k : Nat} (hk : k < vs.length) {he : UnaryIter}
    (hc : Cursor ws off u vs he k) :
    EInv ws base off u vs { e with position := k, value := vs.getD k 0, he := some he } :=
  ⟨h.of, by simp only; rw [if_pos hk], fun _ => ⟨he, rfl, hc⟩⟩

theorem slowMove_spec (c : Ctx ws base off u vs) {junk : List W} (hj : junk ≠ []) {e : Enum} (h : EInv ws base off u vs e)
    {p : Nat} (hp' : p ≤ vs.length) :
    ∃ e', e.slowMove ws junk p = some e' ∧ EInv ws base off u vs e' ∧ e'.position = p := by
  have hn : e.of.n = vs.length := by rw [h.of]; rfl
  unfold Enum.slowMove
  by_cases hend : p = vs.length
  · subst hend
    rw [if_pos hn.symm]
    exact ⟨_, rfl, end_inv h, rfl⟩
  have hk : p < vs.length := by omega
  rw [if_neg (by omega)]
  -- both branches give a cursor and the number of ones to skip
  have key : ∃ he x0 m, (if p > e.position ∧ (p - e.position) / 2 ^ logSampling1 = 0 then
        e.he.map fun he => (he, p - e.position - 1)
      else
        (Enum.pointer ws junk e.of e.of.p1Off (p / 2 ^ logSampling1)).bind fun hp =>
          (UnaryIter.new ws (e.of.hOff + hp)).map fun he => (he, p - p / 2 ^ logSampling1 * 2 ^ logSampling1)) = some (he, m) ∧
      he.ws = ws ∧ he.At (off + x0) ∧ x0 ≤ hp vs (lowerBitsOf u vs.length) p ∧
      Spec.rank (bitAt ws) (off + hp vs (lowerBitsOf u vs.length) p) = Spec.rank (bitAt ws) (off + x0) + m := by
    by_cases hc : p > e.position ∧ (p - e.position) / 2 ^ logSampling1 = 0
    · rw [if_pos hc]
      obtain ⟨he, e1, hcur⟩ := h.he (by omega)
      have hst := hp_strict c.sorted (lowerBitsOf u vs.length) hc.1 hk
      refine ⟨he, hp vs (lowerBitsOf u vs.length) e.position + 1, p - e.position - 1, by rw [e1]; rfl, hcur.1, hcur.2.2, hst, ?_⟩
      rw [c.rank_one hk, ← Nat.add_assoc, Spec.rank_succ, c.rank_one (by omega), c.one (by omega)]
      simp only [if_true]; omega
    · rw [if_neg hc]
      have hlen := c.hp_lt hk
      have hfit := c.fit
      have hmod : p / 2 ^ logSampling1 * 2 ^ logSampling1 ≤ p := Nat.div_mul_le_self _ _
      rcases Nat.eq_zero_or_pos (p / 2 ^ logSampling1) with hz | hz
      · obtain ⟨he, e1, w1, p1, a1⟩ := UnaryIter.new_at (ws := ws) (pos := off) (by omega)
        refine ⟨he, 0, p, ?_, w1, a1, Nat.zero_le _, ?_⟩
        · rw [hz, Enum.pointer, if_pos rfl, Option.bind_some, h.of, c.ofs.1, Nat.add_zero, e1, Option.map_some]; simp
        · rw [c.rank_one hk, Nat.add_zero]
      · rw [h.of, c.pointer1_spec hj hz (by omega), Option.bind_some, c.ofs.1]
        have hle : hp vs (lowerBitsOf u vs.length) (p / 2 ^ logSampling1 * 2 ^ logSampling1) ≤ hp vs (lowerBitsOf u vs.length) p := by
          rcases Nat.eq_or_lt_of_le hmod with h' | h'
          · rw [h']; exact Nat.le_refl _
          · exact Nat.le_of_lt (hp_strict c.sorted _ h' hk)
        obtain ⟨he, e1, w1, p1, a1⟩ := UnaryIter.new_at (ws := ws) (pos := off + hp vs (lowerBitsOf u vs.length) (p / 2 ^ logSampling1 * 2 ^ logSampling1)) (by omega)
        refine ⟨he, _, _, by rw [e1, Option.map_some], w1, a1, hle, ?_⟩
        rw [c.rank_one hk, c.rank_one (by omega)]; omega
  obtain ⟨he, x0, m, ek, kw, ka, kx, kr⟩ := key
  rw [ek, Option.bind_some]
  obtain ⟨he2, e2, w2, p2, a2⟩ := UnaryIter.skip_spec (q := off + hp vs (lowerBitsOf u vs.length) p) (k := m) ka
    (by rw [kw]; exact c.one hk) (by omega) (by rw [kw]; exact kr)
  simp only
  rw [e2, Option.bind_some, h.of]
  obtain ⟨he3, e3, h3⟩ := c.readNext_spec hj hk (he := he2) (x0 := hp vs (lowerBitsOf u vs.length) p) (by rw [w2, kw]) a2 (Nat.le_refl _)
    (by rcases Nat.eq_zero_or_pos p with h | h
        · left; exact h
        · right; exact hp_strict c.sorted _ (by omega) hk)
  rw [e3, Option.map_some]
  have := at_inv h hk h3
  rw [h.of] at this
  exact ⟨_, rfl, this, rfl⟩

/-- `move` goes to any position, from any state. -/
theorem move_spec (c : Ctx ws base off u vs) {junk : List W} (hj : junk ≠ []) {e : Enum} (h : EInv ws base off u vs e)
    {p : Nat} (hp' : p ≤ vs.length) :
    ∃ e', e.move ws junk p = some e' ∧ EInv ws base off u vs e' ∧ e'.position = p := by
  have hn : e.of.n = vs.length := by rw [h.of]; rfl
  unfold Enum.move
  by_cases h1 : p = e.position
  · rw [if_pos h1]; exact ⟨e, rfl, h, h1.symm⟩
  rw [if_neg h1]
  by_cases h2 : p > e.position ∧ p - e.position ≤ Enum.threshold
  · rw [if_pos h2]
    by_cases hend : p = vs.length
    · subst hend; rw [if_pos hn.symm]; exact ⟨_, rfl, end_inv h, rfl⟩
    · have hk : p < vs.length := by omega
      rw [if_neg (by omega)]
      obtain ⟨he, e1, hc⟩ := h.he (by omega)
      obtain ⟨he2, e2, hc2⟩ := c.nextTimes_spec (p - e.position) (k := e.position) (by omega) hc
      rw [show e.position + (p - e.position) = p by omega] at hc2
      obtain ⟨x, ex, hx⟩ := c.readLow_spec hj hk
      rw [e1, Option.bind_some, e2, Option.bind_some, h.of, ex, Option.map_some]
      have hv : Enum.join (offsets base u vs.length) he2.position p x = vs.getD p 0 := by
        unfold Enum.join
        rw [c.ofs.1, hc2.2.1]
        have h1 : off + hp vs (lowerBitsOf u vs.length) p - off - p - 1 = vs.getD p 0 / 2 ^ lowerBitsOf u vs.length := by
          unfold hp; generalize vs.getD p 0 / 2 ^ lowerBitsOf u vs.length = d; omega
        rw [h1]
        exact EF.join_eq (c.bound _ (EF.getD_mem hk)) hx
      rw [hv]
      have := at_inv h hk hc2
      rw [h.of] at this
      exact ⟨_, rfl, this, rfl⟩
  · rw [if_neg h2]; exact c.slowMove_spec hj h hp'

/-- Specification: `m` is the first index whose value is at least `lb`. -/
def _root_.Tongrams.Spec.FirstGeq (vs : List Nat) (lb m : Nat) : Prop :=
  m < vs.length ∧ lb ≤ vs.getD m 0 ∧ ∀ k, k < m → vs.getD k 0 < lb

theorem _root_.Tongrams.Spec.FirstGeq.exists {vs : List Nat} {lb : Nat} : ∀ {k : Nat}, k < vs.length → lb ≤ vs.getD k 0 →
    ∃ m, m ≤ k ∧ Spec.FirstGeq vs lb m := by
  intro k
  induction k using Nat.strongRecOn with
  | ind k ih =>
    intro hk hle
    by_cases h : ∃ j, j < k ∧ lb ≤ vs.getD j 0
    · obtain ⟨j, h1, h2⟩ := h
      obtain ⟨m, h3, h4⟩ := ih j h1 (by omega) h2
      exact ⟨m, by omega, h4⟩
    · refine ⟨k, Nat.le_refl _, hk, hle, fun j hj => ?_⟩
      apply Nat.lt_of_not_le; intro h'; exact h ⟨j, hj, h'⟩

/-- Specification: `m` is the number of values before the first that is at least `lb`. -/
def _root_.Tongrams.Spec.LowerBound (vs : List Nat) (lb m : Nat) : Prop :=
  m ≤ vs.length ∧ (∀ k, k < m → vs.getD k 0 < lb) ∧ (m < vs.length → lb ≤ vs.getD m 0)

theorem _root_.Tongrams.Spec.LowerBound.exists (vs : List Nat) (lb : Nat) : ∃ m, Spec.LowerBound vs lb m := by
  by_cases h : ∃ j, j < vs.length ∧ lb ≤ vs.getD j 0
  · obtain ⟨j, h1, h2⟩ := h
    obtain ⟨m, -, h3⟩ := Spec.FirstGeq.exists h1 h2
    exact ⟨m, Nat.le_of_lt h3.1, h3.2.2, fun _ => h3.2.1⟩
  · refine ⟨vs.length, Nat.le_refl _, fun k hk => ?_, fun h' => absurd h' (Nat.lt_irrefl _)⟩
    apply Nat.lt_of_not_le; intro h'; exact h ⟨k, hk, h'⟩

theorem _root_.Tongrams.Spec.FirstGeq.lower {vs : List Nat} {lb m : Nat} (h : Spec.FirstGeq vs lb m) : Spec.LowerBound vs lb m :=
  ⟨Nat.le_of_lt h.1, h.2.2, fun _ => h.2.1⟩

theorem scanGeq_spec (c : Ctx ws base off u vs) {junk : List W} (hj : junk ≠ []) {lb m : Nat} (hm : Spec.LowerBound vs lb m) :
    ∀ (fuel pos : Nat) (he : UnaryIter), pos < m → m - pos ≤ fuel → Cursor ws off u vs he pos →
      ∃ he', Enum.scanGeq ws junk (offsets base u vs.length) lb fuel pos (some he) =
          some (m, if m < vs.length then vs.getD m 0 else u, some he') ∧ (m < vs.length → Cursor ws off u vs he' m) := by
  intro fuel
  induction fuel with
  | zero => intro pos he h1 h2; omega
  | succ fuel ih =>
    intro pos he h1 h2 hc
    have hmn := hm.1
    rw [Enum.scanGeq]
    by_cases hend : pos + 1 = vs.length
    · rw [if_neg (show ¬ pos + 1 < (offsets base u vs.length).n from (by show ¬ pos + 1 < vs.length; omega))]
      have : m = vs.length := by omega
      subst this
      rw [if_neg (Nat.lt_irrefl _), hend]
      exact ⟨he, rfl, fun h => absurd h (Nat.lt_irrefl _)⟩
    obtain ⟨he1, e1, hc1⟩ := c.readNext_cursor hj (by omega) hc
    rw [if_pos (show pos + 1 < (offsets base u vs.length).n from (by show pos + 1 < vs.length; omega)),
      Option.bind_some, e1, Option.bind_some]
    simp only
    by_cases hpm : pos + 1 = m
    · have := hm.2.2 (by omega)
      rw [if_neg (by rw [hpm]; omega), if_pos (by omega)]
      exact ⟨he1, by rw [hpm], fun _ => by rw [← hpm]; exact hc1⟩
    · rw [if_pos (hm.2.1 _ (by omega))]
      exact ih (pos + 1) he1 (by omega) (by omega) hc1

theorem slowScan_spec (c : Ctx ws base off u vs) {junk : List W} (hj : junk ≠ []) {lb m : Nat} (hm : Spec.LowerBound vs lb m) :
    ∀ (fuel pos x0 : Nat) (he : UnaryIter), pos ≤ m → m - pos < fuel → he.ws = ws → he.At (off + x0) →
      (pos < vs.length → x0 ≤ hp vs (lowerBitsOf u vs.length) pos) → (pos = 0 ∨ hp vs (lowerBitsOf u vs.length) (pos - 1) < x0) →
      ∃ he', Enum.slowScan ws junk (offsets base u vs.length) lb fuel pos he =
          some (m, if m < vs.length then vs.getD m 0 else u, he') ∧ (m < vs.length → Cursor ws off u vs he' m) := by
  intro fuel
  induction fuel with
  | zero => intro pos x0 he h1 h2; omega
  | succ fuel ih =>
    intro pos x0 he h1 h2 hw hat hx h0
    have hmn := hm.1
    rw [Enum.slowScan]
    by_cases hend : pos = vs.length
    · rw [if_pos (show pos = (offsets base u vs.length).n from hend)]
      have : m = vs.length := by omega
      subst this
      rw [if_neg (Nat.lt_irrefl _), hend]
      exact ⟨he, rfl, fun h => absurd h (Nat.lt_irrefl _)⟩
    obtain ⟨he1, e1, hc1⟩ := c.readNext_spec hj (k := pos) (by omega) hw hat (hx (by omega)) h0
    rw [if_neg (show ¬ pos = (offsets base u vs.length).n from hend), e1, Option.bind_some]
    simp only
    by_cases hpm : pos = m
    · rw [if_pos (by rw [hpm]; exact hm.2.2 (by omega)), if_pos (by omega)]
      exact ⟨he1, by rw [hpm], fun _ => by rw [← hpm]; exact hc1⟩
    · rw [if_neg (by have := hm.2.1 pos (by omega); omega)]
      refine ih (pos + 1) (hp vs (lowerBitsOf u vs.length) pos + 1) he1 (by omega) (by omega) hc1.1 hc1.2.2 (fun h' => ?_) (by right; simp)
      exact hp_strict c.sorted _ (Nat.lt_succ_self pos) (by omega)

/-- The zero that precedes the values with high part `≥ h`. -/
theorem zero_at (c : Ctx ws base off u vs) {h cnt : Nat} (hh : h ≤ u / 2 ^ lowerBitsOf u vs.length + 1)
    (B : Below vs (lowerBitsOf u vs.length) h cnt) :
    off + (h + cnt) < 64 * ws.length ∧ bitAt ws (off + (h + cnt)) = false ∧
    Spec.rank (bitAt ws) (off + (h + cnt)) = Spec.rank (bitAt ws) off + cnt ∧
    (cnt < vs.length → h + cnt ≤ hp vs (lowerBitsOf u vs.length) cnt) ∧ (cnt = 0 ∨ hp vs (lowerBitsOf u vs.length) (cnt - 1) < h + cnt) := by
  have hfit := c.fit
  obtain ⟨hcnt, h1, h2⟩ := B
  have hbelow : ∀ k, k < cnt → hp vs (lowerBitsOf u vs.length) k < h + cnt := by
    intro k hk; have := h1 k hk; unfold hp; omega
  have habove : ∀ k, cnt ≤ k → k < vs.length → h + cnt < hp vs (lowerBitsOf u vs.length) k := by
    intro k hk hk'
    have := h2 k hk hk'
    unfold hp; omega
  refine ⟨by omega, ?_, ?_, fun h' => Nat.le_of_lt (habove cnt (Nat.le_refl _) h'), ?_⟩
  · apply Bool.eq_false_iff.2; intro hb
    obtain ⟨k, hk, e⟩ := (c.bits.ones (h + cnt) (by omega)).1 hb
    rcases Nat.lt_or_ge k cnt with h' | h'
    · have := hbelow k h'; omega
    · have := habove k h' hk; omega
  · exact c.rank_at _ _ (by omega) (by omega) hbelow (fun k h1 h2 => Nat.le_of_lt (habove k h1 h2))
  · rcases Nat.eq_zero_or_pos cnt with h' | h'
    · left; exact h'
    · right; exact hbelow _ (by omega)

theorem below_exists (hs : Spec.Sorted vs) (l z : Nat) : ∃ n, Below vs l z n := by
  have hmap : ∀ k, (vs.map (· / 2 ^ l)).getD k 0 = vs.getD k 0 / 2 ^ l := by
    intro k
    rw [List.getD_eq_getElem?_getD, List.getElem?_map, List.getD_eq_getElem?_getD]
    cases vs[k]? <;> simp
  obtain ⟨m, h1, h2, h3⟩ := Spec.LowerBound.exists (vs.map (· / 2 ^ l)) z
  rw [List.length_map] at h1 h3
  refine ⟨m, below_gap hs h1 (fun h => ?_) (fun h => ?_)⟩
  · rw [← hmap]; exact h2 _ (by omega)
  · rw [← hmap]; exact h3 h

theorem below_mono {l z z' n n' : Nat} (h : Below vs l z n) (h' : Below vs l z' n') (hz : z ≤ z') : n ≤ n' := by
  apply Nat.le_of_not_lt; intro hlt
  have h1 := h.2.1 n' hlt
  have h2 := h'.2.2 n' (Nat.le_refl _) (by have := h.1; omega)
  omega

theorem slowNextGeq_spec (c : Ctx ws base off u vs) {junk : List W} (hj : junk ≠ []) (hvu : ∀ v ∈ vs, v < u) {e : Enum}
    (h : EInv ws base off u vs e) {lb m : Nat} (hm : Spec.LowerBound vs lb m) (hlu : lb ≤ u)
    (hd : lb > e.value → e.value / 2 ^ lowerBitsOf u vs.length < lb / 2 ^ lowerBitsOf u vs.length) :
    ∃ e', e.slowNextGeq ws junk lb = some e' ∧ EInv ws base off u vs e' ∧ e'.position = m := by
  have hmn := hm.1
  unfold Enum.slowNextGeq
  have hn : e.of.n = vs.length := by rw [h.of]; rfl
  by_cases hend : lb = u
  · rw [if_pos (by rw [h.of]; show lb ≥ u; omega), hn]
    have : m = vs.length := by
      apply Nat.le_antisymm hmn
      apply Nat.le_of_not_lt; intro h'
      have h1 := hvu _ (EF.getD_mem h')
      have h2 := hm.2.2 h'
      omega
    rw [this]
    exact c.move_spec hj h (Nat.le_refl _)
  have hlbu : lb < u := by omega
  have hhu : lb / 2 ^ lowerBitsOf u vs.length ≤ u / 2 ^ lowerBitsOf u vs.length := Nat.div_le_div_right hlu
  obtain ⟨cnt, B⟩ := below_exists c.sorted (lowerBitsOf u vs.length) (lb / 2 ^ lowerBitsOf u vs.length)
  have hcm : cnt ≤ m := by
    apply Nat.le_of_not_lt; intro hlt
    have h1 := B.2.1 m hlt
    have h2 := Nat.div_le_div_right (c := 2 ^ lowerBitsOf u vs.length) (hm.2.2 (by have := B.1; omega))
    omega
  obtain ⟨q1, q2, q3, q4, q5⟩ := c.zero_at (Nat.le_succ_of_le hhu) B
  have hr0 := Spec.rank_le (bitAt ws) off
  have hnn1 := Nat.zero_le (lb / 2 ^ lowerBitsOf u vs.length)
  have hnn2 := Nat.zero_le (e.value / 2 ^ lowerBitsOf u vs.length)
  rw [if_neg (by rw [h.of]; show ¬ lb ≥ u; omega)]
  have ol : e.of.lowerBits = lowerBitsOf u vs.length := by rw [h.of]; rfl
  simp only
  rw [ol]
  have key : ∃ he he' k, (if lb > e.value ∧ (lb / 2 ^ lowerBitsOf u vs.length - e.value / 2 ^ lowerBitsOf u vs.length) / 2 ^ logSampling0 = 0 then
        e.he.map fun he => (he, lb / 2 ^ lowerBitsOf u vs.length - e.value / 2 ^ lowerBitsOf u vs.length)
      else
        (Enum.pointer ws junk e.of e.of.p0Off (lb / 2 ^ lowerBitsOf u vs.length / 2 ^ logSampling0)).bind fun hp =>
          (UnaryIter.new ws (e.of.hOff + hp)).map fun he =>
            (he, lb / 2 ^ lowerBitsOf u vs.length - lb / 2 ^ lowerBitsOf u vs.length / 2 ^ logSampling0 * 2 ^ logSampling0)) = some (he, k) ∧
      he.skip0 k = some he' ∧ he'.ws = ws ∧ he'.position = off + (lb / 2 ^ lowerBitsOf u vs.length + cnt) ∧
      he'.At (off + (lb / 2 ^ lowerBitsOf u vs.length + cnt)) := by
    by_cases hc : lb > e.value ∧ (lb / 2 ^ lowerBitsOf u vs.length - e.value / 2 ^ lowerBitsOf u vs.length) / 2 ^ logSampling0 = 0
    · rw [if_pos hc]
      have hpn : e.position < vs.length := by
        apply Nat.lt_of_not_le; intro h'
        have := h.value
        rw [if_neg (by omega)] at this; omega
      obtain ⟨he, e1, hcur⟩ := h.he hpn
      have hval := h.value
      rw [if_pos hpn] at hval
      have hd' := hd hc.1
      have hlt : e.position < cnt := by
        apply Nat.lt_of_not_le; intro h'
        have h3 := B.2.2 _ h' hpn
        rw [hval] at hd'
        omega
      have hpos : he.position = off + (e.value / 2 ^ lowerBitsOf u vs.length + e.position + 1) := by
        rw [hcur.2.1]; unfold hp; rw [hval]
      have hr1 : Spec.rank (bitAt ws) (he.position + 1) = Spec.rank (bitAt ws) off + e.position + 1 := by
        rw [Spec.rank_succ, hcur.2.1, c.rank_one hpn, c.one hpn]; simp
      have hle1 := Spec.rank_le (bitAt ws) (he.position + 1)
      obtain ⟨he', e2, w2, p2, a2⟩ := UnaryIter.skip0_after_next (it := he) (q := off + (lb / 2 ^ lowerBitsOf u vs.length + cnt))
        (k := lb / 2 ^ lowerBitsOf u vs.length - e.value / 2 ^ lowerBitsOf u vs.length - 1)
        (by rw [hcur.2.1]; exact hcur.2.2) (by rw [hcur.1]; exact q1) (by rw [hcur.1]; exact q2)
        (by rw [hpos]; omega)
        (by rw [hcur.1, Spec.rank_not, Spec.rank_not, q3, hr1, hpos]; omega)
      refine ⟨he, he', lb / 2 ^ lowerBitsOf u vs.length - e.value / 2 ^ lowerBitsOf u vs.length, by rw [e1]; rfl, ?_, by rw [w2, hcur.1], p2, a2⟩
      rw [← e2]; congr 1; omega
    · rw [if_neg hc]
      have hmod : lb / 2 ^ lowerBitsOf u vs.length / 2 ^ logSampling0 * 2 ^ logSampling0 ≤ lb / 2 ^ lowerBitsOf u vs.length := Nat.div_mul_le_self _ _
      have hB0 : Below vs (lowerBitsOf u vs.length) 0 0 := ⟨Nat.zero_le _, fun k hk => absurd hk (Nat.not_lt_zero _), fun _ _ _ => Nat.zero_le _⟩
      obtain ⟨n0, Bz, hptr⟩ : ∃ n, Below vs (lowerBitsOf u vs.length) (lb / 2 ^ lowerBitsOf u vs.length / 2 ^ logSampling0 * 2 ^ logSampling0) n ∧
          Enum.pointer ws junk (offsets base u vs.length) (offsets base u vs.length).p0Off (lb / 2 ^ lowerBitsOf u vs.length / 2 ^ logSampling0) =
            some (lb / 2 ^ lowerBitsOf u vs.length / 2 ^ logSampling0 * 2 ^ logSampling0 + n) := by
        rcases Nat.eq_zero_or_pos (lb / 2 ^ lowerBitsOf u vs.length / 2 ^ logSampling0) with hz | hz
        · rw [hz, Nat.zero_mul]
          exact ⟨0, hB0, by rw [Enum.pointer, if_pos rfl]⟩
        · exact c.pointer0_spec hj hz (by omega)
      generalize hz : lb / 2 ^ lowerBitsOf u vs.length / 2 ^ logSampling0 * 2 ^ logSampling0 = z at *
      have hmono := below_mono Bz B hmod
      obtain ⟨r1, r2, r3, r4, r5⟩ := c.zero_at (show z ≤ u / 2 ^ lowerBitsOf u vs.length + 1 by omega) Bz
      obtain ⟨he, e1, w1, p1, a1⟩ := UnaryIter.new_at (ws := ws) (pos := off + (z + n0)) r1
      have hle1 := Spec.rank_le (bitAt ws) (off + (z + n0))
      obtain ⟨he', e2, w2, p2, a2⟩ := UnaryIter.skip0_spec (it := he) (q := off + (lb / 2 ^ lowerBitsOf u vs.length + cnt))
        (k := lb / 2 ^ lowerBitsOf u vs.length - z) (by rw [p1]; exact a1) (by rw [w1]; exact q1) (by rw [w1]; exact q2) (by rw [p1]; omega)
        (by rw [w1, Spec.rank_not, Spec.rank_not, q3, p1, r3]; omega)
      refine ⟨he, he', lb / 2 ^ lowerBitsOf u vs.length - z, ?_, e2, by rw [w2, w1], p2, a2⟩
      rw [h.of, hptr, Option.bind_some, c.ofs.1, e1, Option.map_some]
  obtain ⟨he, he', k, ek, e2, w2, p2, a2⟩ := key
  rw [ek, Option.bind_some]
  simp only
  rw [e2, Option.bind_some]
  have hpos : he'.position - e.of.hOff - lb / 2 ^ lowerBitsOf u vs.length = cnt := by
    rw [h.of, c.ofs.1, p2]; omega
  rw [hpos]
  obtain ⟨he3, e3, c3⟩ := c.slowScan_spec hj hm (vs.length + 1) cnt _ he' hcm (by omega) w2 a2 q4 q5
  have hof : Enum.slowScan ws junk e.of lb (e.of.n + 1) cnt he' = some (m, if m < vs.length then vs.getD m 0 else u, he3) := by
    rw [h.of]; exact e3
  rw [hof, Option.map_some]
  exact ⟨_, rfl, ⟨h.of, rfl, fun h' => ⟨he3, rfl, c3 h'⟩⟩, rfl⟩

/-- `next_geq(lb)` for `lb ≤ u`, from any state: the first value `≥ lb` or the end, unless the current value is `lb`. -/
theorem nextGeq_any (c : Ctx ws base off u vs) {junk : List W} (hj : junk ≠ []) (hvu : ∀ v ∈ vs, v < u) {e : Enum}
    (h : EInv ws base off u vs e) {lb m : Nat} (hm : Spec.LowerBound vs lb m) (hlu : lb ≤ u) :
    ∃ e', e.nextGeq ws junk lb = some e' ∧ EInv ws base off u vs e' ∧
      (e'.position = m ∨ (e' = e ∧ e.value = lb)) := by
  have hmn := hm.1
  unfold Enum.nextGeq
  have hval := h.value
  by_cases h1 : lb = e.value
  · rw [if_pos h1]
    exact ⟨e, rfl, h, Or.inr ⟨rfl, h1.symm⟩⟩
  rw [if_neg h1]
  have ol : e.of.lowerBits = lowerBitsOf u vs.length := by rw [h.of]; rfl
  rw [ol]
  by_cases h2 : lb > e.value ∧ lb / 2 ^ lowerBitsOf u vs.length - e.value / 2 ^ lowerBitsOf u vs.length ≤ Enum.threshold
  · rw [if_pos h2]
    have hpn : e.position < vs.length := by
      apply Nat.lt_of_not_le; intro h'
      rw [if_neg (by omega)] at hval; omega
    rw [if_pos hpn] at hval
    have hpm : e.position < m := by
      apply Nat.lt_of_not_le; intro h'
      have := EF.sorted_getD c.sorted h' hpn
      have := hm.2.2 (by omega); omega
    obtain ⟨he, e1, hcur⟩ := h.he hpn
    obtain ⟨he3, e3, c3⟩ := c.scanGeq_spec hj hm (vs.length + 1) e.position he hpm (by omega) hcur
    have hof : Enum.scanGeq ws junk e.of lb (e.of.n + 1) e.position e.he = some (m, if m < vs.length then vs.getD m 0 else u, some he3) := by
      rw [h.of, e1]; exact e3
    rw [hof, Option.map_some]
    exact ⟨_, rfl, ⟨h.of, rfl, fun h' => ⟨he3, rfl, c3 h'⟩⟩, Or.inl rfl⟩
  · rw [if_neg h2]
    obtain ⟨e', e1, h1', h2'⟩ := c.slowNextGeq_spec hj hvu h hm hlu (by
      intro hgt
      have h3 : ¬ lb / 2 ^ lowerBitsOf u vs.length - e.value / 2 ^ lowerBitsOf u vs.length ≤ Enum.threshold := fun h' => h2 ⟨hgt, h'⟩
      generalize lb / 2 ^ lowerBitsOf u vs.length = a at *
      generalize e.value / 2 ^ lowerBitsOf u vs.length = b at *
      unfold Enum.threshold at h3; omega)
    exact ⟨e', e1, h1', Or.inl h2'⟩

/-- `next_geq(lb)`, from any state: the first value `≥ lb`, unless the current value is `lb`. -/
theorem nextGeq_spec (c : Ctx ws base off u vs) {junk : List W} (hj : junk ≠ []) (hvu : ∀ v ∈ vs, v < u) {e : Enum}
    (h : EInv ws base off u vs e) {lb m : Nat} (hm : Spec.FirstGeq vs lb m) :
    ∃ e', e.nextGeq ws junk lb = some e' ∧ EInv ws base off u vs e' ∧
      (e'.position = m ∨ (e' = e ∧ e.position < vs.length ∧ vs.getD e.position 0 = lb)) := by
  have hlbu : lb < u := Nat.lt_of_le_of_lt hm.2.1 (hvu _ (EF.getD_mem hm.1))
  obtain ⟨e', e1, h1, h2⟩ := c.nextGeq_any hj hvu h hm.lower (by omega)
  refine ⟨e', e1, h1, h2.imp id fun ⟨h3, h4⟩ => ⟨h3, ?_⟩⟩
  have hval := h.value
  have hpn : e.position < vs.length := by
    apply Nat.lt_of_not_le; intro h'
    rw [if_neg (by omega)] at hval; omega
  rw [if_pos hpn] at hval
  exact ⟨hpn, by omega⟩

/-- `next()` from any position before the end. -/
theorem next_spec (c : Ctx ws base off u vs) {junk : List W} (hj : junk ≠ []) {e : Enum} (h : EInv ws base off u vs e)
    (hp' : e.position < vs.length) :
    ∃ e', e.next ws junk = some e' ∧ EInv ws base off u vs e' ∧ e'.position = e.position + 1 := by
  have hn : e.of.n = vs.length := by rw [h.of]; rfl
  unfold Enum.next
  by_cases h1 : e.position + 1 < vs.length
  · rw [if_pos (by omega)]
    obtain ⟨he, e1, hc⟩ := h.he hp'
    obtain ⟨he', e2, hc'⟩ := c.readNext_cursor hj h1 hc
    rw [e1, Option.bind_some, h.of, e2, Option.map_some]
    have := at_inv h h1 hc'
    rw [h.of] at this
    exact ⟨_, rfl, this, rfl⟩
  · rw [if_neg (by omega)]
    refine ⟨_, rfl, ⟨h.of, ?_, fun h' => absurd h' h1⟩, rfl⟩
    simp only
    rw [if_neg h1, h.of]; rfl

/-- `prev_value()` from any position but the first. -/
theorem prevValue_spec (c : Ctx ws base off u vs) {junk : List W} (hj : junk ≠ []) {e : Enum} (h : EInv ws base off u vs e)
    (h0 : 0 < e.position) (hle : e.position ≤ vs.length) : e.prevValue ws junk = some (vs.getD (e.position - 1) 0) := by
  have hn : e.of.n = vs.length := by rw [h.of]; rfl
  unfold Enum.prevValue
  rw [if_neg (by omega)]
  have hk : e.position - 1 < vs.length := by omega
  have hfit := c.fit
  have hlt := c.hp_lt hk
  have key : (if e.position < e.of.n then e.he.bind fun he => predecessor1 ws (he.position - 1)
      else predecessor1 ws (e.of.lOff - 1)) = some (off + hp vs (lowerBitsOf u vs.length) (e.position - 1)) := by
    by_cases h1 : e.position < vs.length
    · rw [if_pos (by omega)]
      obtain ⟨he, e1, hc⟩ := h.he h1
      rw [e1, Option.bind_some, hc.2.1]
      have hst := hp_strict c.sorted (lowerBitsOf u vs.length) (show e.position - 1 < e.position by omega) h1
      have hlt' := c.hp_lt h1
      refine predecessor1_spec (by omega) (c.one hk) (by omega) (fun q hq1 hq2 => ?_)
      exact c.gap h1 (x0 := hp vs (lowerBitsOf u vs.length) (e.position - 1) + 1) (Or.inr (by omega)) q (by omega) (by omega)
    · rw [if_neg (by omega), h.of, c.ofs.2]
      refine predecessor1_spec (by omega) (c.one hk) (by omega) (fun q hq1 hq2 => ?_)
      apply Bool.eq_false_iff.2; intro hb
      obtain ⟨x, rfl⟩ : ∃ x, q = off + x := ⟨q - off, by omega⟩
      obtain ⟨k', hk', e'⟩ := (c.bits.ones x (by omega)).1 hb
      rcases Nat.eq_or_lt_of_le (show k' ≤ e.position - 1 by omega) with h3 | h3
      · subst h3; omega
      · have := hp_strict c.sorted (lowerBitsOf u vs.length) h3 hk; omega
  rw [key, Option.bind_some, h.of]
  obtain ⟨x, ex, hx⟩ := c.readLow_spec hj hk
  rw [ex, Option.map_some]
  unfold Enum.join
  rw [c.ofs.1]
  have h1 : off + hp vs (lowerBitsOf u vs.length) (e.position - 1) - off - (e.position - 1) - 1 = vs.getD (e.position - 1) 0 / 2 ^ lowerBitsOf u vs.length := by
    unfold hp; generalize vs.getD (e.position - 1) 0 / 2 ^ lowerBitsOf u vs.length = d; omega
  rw [h1]
  show some (((vs.getD (e.position - 1) 0 / 2 ^ lowerBitsOf u vs.length) <<< lowerBitsOf u vs.length) % 2 ^ 64 ||| x.toNat) = _
  rw [EF.join_eq (c.bound _ (EF.getD_mem hk)) hx]

end Ctx
end CEF
end Tongrams
