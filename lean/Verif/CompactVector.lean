import Verif.Util

/-!
# include/vectors/compact_vector.hpp
-/

namespace Tongrams

/-- `compact_vector::builder`, members: compact_vector.hpp:206-212. -/
structure CVBuilder where
  size : Nat
  width : Nat
  mask : W
  back : W
  curBlock : Nat
  curShift : Int
  bits : List W

/-- `compact_vector`, members: compact_vector.hpp:321-324. -/
structure CompactVector where
  size : Nat
  width : Nat
  mask : W
  bits : List W
deriving DecidableEq

namespace CVBuilder

/-- `builder(n, w)`, compact_vector.hpp:65-77; a width above 64 calls `std::terminate` (`none`).
The undefined shift `1ULL << 64` has no influence, see `maskJ_eq`. -/
def new (n w : Nat) : Option CVBuilder :=
  let width := if w = 0 then w + 1 else w
  if width > 64 then none
  else some { size := n, width := width, mask := maskOf w, back := 0, curBlock := 0, curShift := 0,
              bits := List.replicate (wordsFor (n * width)) 0 }

/-- `builder::resize(n, w)`, compact_vector.hpp:79-88 (`std::vector::resize` truncates or pads
with zeros). -/
def resize (b : CVBuilder) (n w : Nat) : Option CVBuilder :=
  let width := if w = 0 then w + 1 else w
  if width > 64 then none
  else some { b with
    size := n, width := width, mask := maskOf w
    bits := b.bits.take (wordsFor (n * width)) ++
      List.replicate (wordsFor (n * width) - b.bits.length) 0 }

/-- `builder::set(i, v)`, compact_vector.hpp:106-125 (asserts disabled). -/
def set (b : CVBuilder) (i : Nat) (v : W) : Option CVBuilder := do
  let back := if i = b.size - 1 then v else b.back
  let bits ← writeField b.bits (i * b.width) b.width b.mask v
  return { b with back := back, bits := bits }

/-- `builder::push_back(v)`, compact_vector.hpp:127-147. -/
def pushBack (b : CVBuilder) (v : W) : Option CVBuilder := do
  let shift := b.curShift.toNat
  let bits ← wr b.bits b.curBlock (fun x => x &&& ~~~(b.mask <<< shift))
  let bits ← wr bits b.curBlock (fun x => x ||| (v <<< shift))
  let resShift := 64 - shift
  let (bits, curBlock, curShift) ←
    if resShift < b.width then do
      let curBlock := b.curBlock + 1
      let bits ← wr bits curBlock (fun x => x &&& ~~~(b.mask >>> resShift))
      let bits ← wr bits curBlock (fun x => x ||| (v >>> resShift))
      some (bits, curBlock, (-(resShift : Int)))
    else some (bits, b.curBlock, b.curShift)
  let curShift := curShift + b.width
  if curShift = 64 then
    return { b with back := v, bits := bits, curBlock := curBlock + 1, curShift := 0 }
  else
    return { b with back := v, bits := bits, curBlock := curBlock, curShift := curShift }

/-- `builder::fill(begin, n)`, compact_vector.hpp:95-104: pushes the values one by one
(the width is never 0 here). -/
def fill (b : CVBuilder) : List W → Option CVBuilder
  | [] => some b
  | v :: vs => do
    let b ← b.pushBack v
    b.fill vs

/-- `builder::operator[]`, compact_vector.hpp:149-158. -/
def get (b : CVBuilder) (i : Nat) : Option W := readField b.bits (i * b.width) b.width b.mask

/-- `builder::build(cv)`, compact_vector.hpp:172-178: the vector keeps the builder's mask. -/
def build (b : CVBuilder) : CompactVector :=
  { size := b.size, width := b.width, mask := b.mask, bits := b.bits }

end CVBuilder

namespace CompactVector

/-- `compact_vector::build(builder&)`, compact_vector.hpp:221-226: the mask is recomputed. -/
def ofBuilder (b : CVBuilder) : CompactVector :=
  { size := b.size, width := b.width, mask := maskOf b.width, bits := b.bits }

/-- `compact_vector::operator[]`, compact_vector.hpp:243-252. -/
def get (cv : CompactVector) (i : Nat) : Option W :=
  readField cv.bits (i * cv.width) cv.width cv.mask

/-- `back()`, compact_vector.hpp:268-270 (`size() - 1` on an empty vector is out of range). -/
def back (cv : CompactVector) : Option W :=
  if cv.size = 0 then none else cv.get (cv.size - 1)

/-- The maximum of a list of values as computed by the loop compact_vector.hpp:230-237. -/
def maxLoop : List W → W → W
  | [], m => m
  | v :: vs, m => maxLoop vs (if m.toNat < v.toNat then v else m)

/-- `compact_vector::build(begin, n, order)`, compact_vector.hpp:228-241. `max + 1` is computed
in 64 bits and wraps. -/
def buildFrom (vs : List W) : Option CompactVector := do
  let max := maxLoop vs 0
  let cvb ← CVBuilder.new vs.length (ceilLog2 (max + 1#64))
  let cvb ← cvb.fill vs
  return ofBuilder cvb

/-- Little-endian load of the 8 bytes at byte offset `o` of an array of words. -/
def loadU64 (ws : List W) (o : Nat) : Option W :=
  if o % 8 = 0 then rd ws (o / 8)
  else do
    let a ← rd ws (o / 8)
    let b ← rd ws (o / 8 + 1)
    return (a >>> (8 * (o % 8))) ||| (b <<< (64 - 8 * (o % 8)))

/-- `compact_vector::access(i)`, compact_vector.hpp:255-262. The 8-byte load may extend past the
end of the storage: `junk` is whatever memory follows it. -/
def access (cv : CompactVector) (junk : List W) (i : Nat) : Option W := do
  let pos := i * cv.width
  let w ← loadU64 (cv.bits ++ junk) (pos / 8)
  return (w >>> (pos % 8)) &&& cv.mask

/-- `compact_vector::iterator`, compact_vector.hpp:36-40. -/
structure Iter where
  i : Nat
  curVal : W
  curBlock : Nat
  curShift : Int

/-- `iterator(data, i)`, compact_vector.hpp:10-15; `begin(pos)` 282-284. -/
def begin (cv : CompactVector) (i : Nat) : Iter :=
  { i := i, curVal := 0, curBlock := i * cv.width / 64, curShift := ((i * cv.width % 64 : Nat) : Int) }

/-- `operator*` (= `read()`), compact_vector.hpp:17-20,42-61: reading advances the cursor. -/
def Iter.deref (cv : CompactVector) (it : Iter) : Option (W × Iter) := do
  let shift := it.curShift.toNat
  let (val, curBlock, curShift) ←
    if it.curShift + cv.width ≤ 64 then do
      let a ← rd cv.bits it.curBlock
      some ((a >>> shift) &&& cv.mask, it.curBlock, it.curShift)
    else do
      let resShift := 64 - shift
      let a ← rd cv.bits it.curBlock
      let b ← rd cv.bits (it.curBlock + 1)
      some ((a >>> shift) ||| ((b <<< resShift) &&& cv.mask), it.curBlock + 1, (-(resShift : Int)))
  let curShift := curShift + cv.width
  if curShift = 64 then
    return (val, { it with curVal := val, curBlock := curBlock + 1, curShift := 0 })
  else
    return (val, { it with curVal := val, curBlock := curBlock, curShift := curShift })

/-- `operator++`, compact_vector.hpp:22-25: only counts. -/
def Iter.incr (it : Iter) : Iter := { it with i := it.i + 1 }

/-- Reading `n` values with `*it; ++it`. -/
def Iter.take (cv : CompactVector) : Nat → Iter → Option (List W)
  | 0, _ => some []
  | n + 1, it => do
    let (v, it) ← it.deref cv
    let vs ← Iter.take cv n it.incr
    return v :: vs

/-- The loop `for (; it != end(); ++it) out.push_back(*it)`; `end()` compact_vector.hpp:286-288 is
the iterator of index `size`, and `operator==` (27-29) compares indices only. `none` if the loop has
not stopped within the fuel. -/
def Iter.toEnd (cv : CompactVector) : Nat → Iter → Option (List W)
  | 0, it => if it.i = (cv.begin cv.size).i then some [] else none
  | n + 1, it =>
    if it.i = (cv.begin cv.size).i then some []
    else do
      let (v, it) ← it.deref cv
      let vs ← Iter.toEnd cv n it.incr
      return v :: vs

/-- Well-formed vector: what the builders produce. -/
structure WF (cv : CompactVector) : Prop where
  w1 : 1 ≤ cv.width
  w64 : cv.width ≤ 64
  mask : cv.mask = maskOf cv.width
  len : cv.size * cv.width ≤ 64 * cv.bits.length

/-- `cv` is well-formed and stores exactly the values `vs`. -/
structure Holds (cv : CompactVector) (vs : List W) : Prop where
  wf : cv.WF
  size : cv.size = vs.length
  bits : ∀ i (h : i < vs.length) j, j < cv.width → bitAt cv.bits (i * cv.width + j) = vs[i].getLsbD j
  fit : ∀ v ∈ vs, v.toNat < 2 ^ cv.width

end CompactVector

/-! ## Proofs -/

theorem mul_index_le {i n w : Nat} (h : i < n) : i * w + w ≤ n * w := by
  have := Nat.mul_le_mul_right w (show i + 1 ≤ n from h)
  rw [Nat.add_mul] at this; omega

theorem words_mul (n : Nat) : n ≤ 64 * wordsFor n := by unfold wordsFor; omega

/-- The positions of different entries do not overlap. -/
theorem index_disjoint {i k w j : Nat} (hj : j < w) (hik : i ≠ k) :
    ¬ (k * w ≤ i * w + j ∧ i * w + j < k * w + w) := by
  intro ⟨h1, h2⟩
  rcases Nat.lt_or_gt_of_ne hik with h | h
  · have := mul_index_le (w := w) h; omega
  · have := mul_index_le (w := w) h; omega

namespace CVBuilder

/-- `push_back` is a field write at the cursor that advances the cursor by `width` bits. -/
theorem pushBack_eq (b : CVBuilder) (v : W) (pos : Nat) (hblk : b.curBlock = pos / 64)
    (hsh : b.curShift = ((pos % 64 : Nat) : Int)) (hw : b.width ≤ 64) :
    b.pushBack v = (writeField b.bits pos b.width b.mask v).map (fun bits =>
      { b with back := v, bits := bits, curBlock := (pos + b.width) / 64,
               curShift := (((pos + b.width) % 64 : Nat) : Int) }) := by
  unfold pushBack writeField
  have hs : b.curShift.toNat = pos % 64 := by omega
  simp only [hblk, hs, Option.bind_eq_bind, Option.pure_def]
  cases wr b.bits (pos / 64) (fun x => x &&& ~~~(b.mask <<< (pos % 64))) with
  | none => rfl
  | some ws =>
    simp only [Option.bind_some]
    cases wr ws (pos / 64) (fun x => x ||| (v <<< (pos % 64))) with
    | none => rfl
    | some ws =>
      simp only [Option.bind_some]
      by_cases hc : 64 - pos % 64 < b.width
      · simp only [hc, if_true]
        cases wr ws (pos / 64 + 1) (fun x => x &&& ~~~(b.mask >>> (64 - pos % 64))) with
        | none => rfl
        | some ws =>
          simp only [Option.bind_some]
          cases wr ws (pos / 64 + 1) (fun x => x ||| (v >>> (64 - pos % 64))) with
          | none => rfl
          | some ws =>
            simp only [Option.bind_some, Option.map_some]
            by_cases h64 : (-((64 - pos % 64 : Nat) : Int)) + (b.width : Int) = 64
            · omega
            · rw [if_neg h64]
              have e1 : (pos + b.width) / 64 = pos / 64 + 1 := by omega
              have e2 : (((pos + b.width) % 64 : Nat) : Int) = (-((64 - pos % 64 : Nat) : Int)) + (b.width : Int) := by
                omega
              rw [e1, e2]
      · simp only [hc, if_false, Option.map_some]
        by_cases h64 : b.curShift + (b.width : Int) = 64
        · rw [if_pos h64]
          have e1 : (pos + b.width) / 64 = pos / 64 + 1 := by omega
          have e2 : (((pos + b.width) % 64 : Nat) : Int) = 0 := by omega
          rw [e1, e2]
        · rw [if_neg h64]
          have e1 : (pos + b.width) / 64 = pos / 64 := by omega
          have e2 : (((pos + b.width) % 64 : Nat) : Int) = b.curShift + (b.width : Int) := by omega
          rw [e1, e2]

/-- Invariant of a builder of effective width `w ≥ 1` after the values `vs` have been pushed. -/
structure Pushed (b : CVBuilder) (n w : Nat) (vs : List W) : Prop where
  size : b.size = n
  width : b.width = w
  mask : b.mask = maskOf w
  len : n * w ≤ 64 * b.bits.length
  blk : b.curBlock = vs.length * w / 64
  sh : b.curShift = ((vs.length * w % 64 : Nat) : Int)
  bits : ∀ i (h : i < vs.length) j, j < w → bitAt b.bits (i * w + j) = vs[i].getLsbD j

theorem new_pushed {n w : Nat} (h1 : 1 ≤ w) (h64 : w ≤ 64) :
    ∃ b, new n w = some b ∧ Pushed b n w [] ∧ ∀ i, bitAt b.bits i = false := by
  have hw : (if w = 0 then w + 1 else w) = w := by rw [if_neg (by omega)]
  refine ⟨_, by unfold new; simp only [hw]; rw [if_neg (by omega)], ?_, ?_⟩
  · constructor <;> simp
    exact words_mul _
  · intro i; exact bitAt_replicate_zero (wordsFor (n * w)) i

theorem pushed_step {b : CVBuilder} {n w : Nat} {vs : List W} (hp : Pushed b n w vs)
    (h1 : 1 ≤ w) (h64 : w ≤ 64) (hn : vs.length < n) (v : W) (hv : v.toNat < 2 ^ w) :
    ∃ b', b.pushBack v = some b' ∧ Pushed b' n w (vs ++ [v]) := by
  have hin : vs.length * w + w ≤ 64 * b.bits.length := Nat.le_trans (mul_index_le hn) hp.len
  obtain ⟨ws, hws, hlen, hbits⟩ := writeField_spec b.bits (vs.length * w) w v h1 h64 hin hv
  rw [pushBack_eq b v (vs.length * w) hp.blk hp.sh (by rw [hp.width]; exact h64), hp.width, hp.mask,
    hws]
  refine ⟨_, rfl, ?_⟩
  constructor
  · exact hp.size
  · rfl
  · rfl
  · simp only; rw [hlen]; exact hp.len
  · simp [Nat.add_mul]
  · simp [Nat.add_mul]
  · intro i hi j hj
    simp only [List.length_append, List.length_singleton] at hi
    simp only
    rw [hbits]
    by_cases he : i = vs.length
    · subst he
      rw [if_pos (by omega), List.getElem_append_right (by omega)]
      simp
    · rw [if_neg (index_disjoint hj he), List.getElem_append_left (by omega)]
      exact hp.bits i (by omega) j hj

theorem fill_pushed {n w : Nat} (h1 : 1 ≤ w) (h64 : w ≤ 64) (ws : List W) :
    ∀ {b : CVBuilder} {vs : List W}, Pushed b n w vs → vs.length + ws.length ≤ n →
      (∀ v ∈ ws, v.toNat < 2 ^ w) → ∃ b', b.fill ws = some b' ∧ Pushed b' n w (vs ++ ws) := by
  induction ws with
  | nil => intro b vs hp _ _; exact ⟨b, rfl, by simpa using hp⟩
  | cons v ws ih =>
    intro b vs hp hn hv
    simp only [List.length_cons] at hn
    obtain ⟨b1, e1, hp1⟩ := pushed_step hp h1 h64 (by omega) v (hv v (by simp))
    obtain ⟨b2, e2, hp2⟩ := ih hp1 (by simp; omega) (fun x hx => hv x (by simp [hx]))
    refine ⟨b2, ?_, by simpa using hp2⟩
    simp [fill, e1, e2]

theorem holds_of_pushed {b : CVBuilder} {w : Nat} {vs : List W} (h1 : 1 ≤ w) (h64 : w ≤ 64)
    (hp : Pushed b vs.length w vs) (hv : ∀ v ∈ vs, v.toNat < 2 ^ w) :
    (CompactVector.ofBuilder b).Holds vs := by
  refine ⟨⟨?_, ?_, ?_, ?_⟩, ?_, ?_, ?_⟩ <;> simp only [CompactVector.ofBuilder]
  · rw [hp.width]; exact h1
  · rw [hp.width]; exact h64
  · rw [hp.width, hp.size]; exact hp.len
  · exact hp.size
  · intro i hi j hj
    rw [hp.width] at hj ⊢
    exact hp.bits i hi j hj
  · rw [hp.width]; exact hv

/-! ### Width 0 -/

theorem wr_id {ws : List W} {i : Nat} (h : i < ws.length) (f : W → W) (hf : ∀ x, f x = x) :
    wr ws i f = some ws := by
  rw [wr_of_lt h]; simp [hf, h]

theorem writeField_zero {ws : List W} {pos : Nat} (h : pos < 64 * ws.length) :
    writeField ws pos 1 0#64 0#64 = some ws := by
  unfold writeField
  have hb : pos / 64 < ws.length := by omega
  have e1 := wr_id hb (fun x => x &&& ~~~(0#64 <<< (pos % 64))) (fun x => by
    rw [BitVec.zero_shiftLeft, show ~~~(0#64) = BitVec.allOnes 64 from rfl, BitVec.and_allOnes])
  have e2 := wr_id hb (fun x => x ||| (0#64 <<< (pos % 64))) (fun x => by simp)
  simp only [e1, e2, Option.bind_eq_bind, Option.bind_some, Option.pure_def]
  rw [if_neg (by omega)]

/-- Invariant of a builder made with width 0: one bit per entry, all zero. -/
structure Pushed0 (b : CVBuilder) (n k : Nat) : Prop where
  size : b.size = n
  width : b.width = 1
  mask : b.mask = 0#64
  len : n ≤ 64 * b.bits.length
  blk : b.curBlock = k / 64
  sh : b.curShift = ((k % 64 : Nat) : Int)
  bits : ∀ i, bitAt b.bits i = false

theorem new_pushed0 (n : Nat) : ∃ b, new n 0 = some b ∧ Pushed0 b n 0 := by
  refine ⟨_, by unfold new; simp only [if_true]; rw [if_neg (by omega)], ?_⟩
  constructor <;> simp
  · decide
  · exact words_mul _
  · intro i; exact bitAt_replicate_zero _ _

theorem fill_pushed0 {n : Nat} (ws : List W) :
    ∀ {b : CVBuilder} {k : Nat}, Pushed0 b n k → k + ws.length ≤ n →
      (∀ v ∈ ws, v.toNat < 2 ^ 0) → ∃ b', b.fill ws = some b' ∧ Pushed0 b' n (k + ws.length) := by
  induction ws with
  | nil => intro b k hp _ _; exact ⟨b, rfl, by simpa using hp⟩
  | cons v ws ih =>
    intro b k hp hn hv
    simp only [List.length_cons] at hn
    have hv0 : v = 0#64 := by
      apply BitVec.eq_of_toNat_eq
      have := hv v (by simp)
      simp at this; simpa using this
    subst hv0
    have hpk : k < 64 * b.bits.length := by have := hp.len; omega
    have e1 : b.pushBack 0#64 = some { b with back := 0#64, curBlock := (k + 1) / 64, curShift := (((k + 1) % 64 : Nat) : Int) } := by
      rw [pushBack_eq b 0#64 k hp.blk hp.sh (by rw [hp.width]; omega), hp.width, hp.mask,
        writeField_zero hpk]
      rfl
    have hp1 : Pushed0 { b with back := 0#64, curBlock := (k + 1) / 64, curShift := (((k + 1) % 64 : Nat) : Int) } n (k + 1) :=
      ⟨hp.size, hp.width, hp.mask, hp.len, rfl, rfl, hp.bits⟩
    obtain ⟨b2, e2, hp2⟩ := ih hp1 (by omega) (fun x hx => hv x (by simp [hx]))
    refine ⟨b2, ?_, by simpa [Nat.add_assoc, Nat.add_comm] using hp2⟩
    simp only [fill, e1, Option.bind_eq_bind, Option.bind_some]; exact e2

/-- `set` is a pointwise update. -/
theorem set_spec {b : CVBuilder} (h1 : 1 ≤ b.width) (h64 : b.width ≤ 64)
    (hm : b.mask = maskOf b.width) (hl : b.size * b.width ≤ 64 * b.bits.length)
    {i : Nat} (hi : i < b.size) {v : W} (hv : v.toNat < 2 ^ b.width) :
    ∃ b', b.set i v = some b' ∧ b'.size = b.size ∧ b'.width = b.width ∧ b'.mask = b.mask ∧
      b'.bits.length = b.bits.length ∧
      (∀ j, j < b.width → bitAt b'.bits (i * b.width + j) = v.getLsbD j) ∧
      (∀ k j, k ≠ i → j < b.width → bitAt b'.bits (k * b.width + j) = bitAt b.bits (k * b.width + j)) := by
  have hin : i * b.width + b.width ≤ 64 * b.bits.length := Nat.le_trans (mul_index_le hi) hl
  obtain ⟨ws, hws, hlen, hbits⟩ := writeField_spec b.bits (i * b.width) b.width v h1 h64 hin hv
  have hset : b.set i v = some { b with back := (if i = b.size - 1 then v else b.back), bits := ws } := by
    unfold set; rw [hm, hws]; simp
  refine ⟨_, hset, rfl, rfl, rfl, hlen, ?_, ?_⟩
  · intro j hj; simp only; rw [hbits, if_pos (by omega)]; congr 1; omega
  · intro k j hk hj; simp only; rw [hbits, if_neg (index_disjoint hj hk)]

end CVBuilder

namespace CompactVector

theorem get_of_bits {cv : CompactVector} (wf : cv.WF) {i : Nat} (hi : i < cv.size) :
    ∃ x, cv.get i = some x ∧ ∀ j, x.getLsbD j = (decide (j < cv.width) && bitAt cv.bits (i * cv.width + j)) := by
  unfold get
  rw [wf.mask]
  exact readField_spec _ _ _ wf.w1 wf.w64 (Nat.le_trans (mul_index_le hi) wf.len)

theorem Holds.get {cv : CompactVector} {vs : List W} (h : cv.Holds vs) {i : Nat} (hi : i < vs.length) :
    cv.get i = some vs[i] := by
  obtain ⟨x, hx, hb⟩ := get_of_bits h.wf (h.size ▸ hi)
  rw [hx]; congr 1
  apply BitVec.eq_of_getLsbD_eq
  intro j _
  rw [hb]
  by_cases hj : j < cv.width
  · simp only [hj, decide_true, Bool.true_and]; exact h.bits i hi j hj
  · simp only [hj, decide_false, Bool.false_and]
    exact (bit_high_false (h.fit _ (List.getElem_mem hi)) (by omega)).symm

/-- `cv` equals `fill` of a builder: every stored value comes back. -/
theorem fill_holds (w : Nat) (h64 : w ≤ 64) (vs : List W) (hv : ∀ v ∈ vs, v.toNat < 2 ^ w) :
    ∃ b b', CVBuilder.new vs.length w = some b ∧ b.fill vs = some b' ∧
      (ofBuilder b').Holds vs ∧ (1 ≤ w → b'.build = ofBuilder b') ∧ b'.width = max 1 w := by
  by_cases hw : w = 0
  · subst hw
    obtain ⟨b, e, hp⟩ := CVBuilder.new_pushed0 vs.length
    obtain ⟨b', e', hp'⟩ := CVBuilder.fill_pushed0 vs hp (by omega) hv
    refine ⟨b, b', e, e', ⟨⟨?_, ?_, ?_, ?_⟩, ?_, ?_, ?_⟩, by omega, hp'.width⟩ <;> simp only [ofBuilder]
    · rw [hp'.width]; omega
    · rw [hp'.width]; omega
    · rw [hp'.size, hp'.width]; have := hp'.len; omega
    · exact hp'.size
    · intro i hi j _
      rw [hp'.bits, bit_high_false (hv _ (List.getElem_mem hi)) (by omega)]
    · intro v hm
      have := hv v hm
      rw [hp'.width]; omega
  · have h1 : 1 ≤ w := by omega
    obtain ⟨b, e, hp, -⟩ := CVBuilder.new_pushed (n := vs.length) h1 h64
    obtain ⟨b', e', hp'⟩ := CVBuilder.fill_pushed h1 h64 vs hp (by simp) hv
    simp only [List.nil_append] at hp'
    refine ⟨b, b', e, e', CVBuilder.holds_of_pushed h1 h64 hp' hv, fun _ => ?_, by rw [hp'.width]; omega⟩
    simp only [CVBuilder.build, ofBuilder, hp'.mask, hp'.width]

theorem maxLoop_spec (vs : List W) : ∀ m, m.toNat ≤ (maxLoop vs m).toNat ∧
    (∀ v ∈ vs, v.toNat ≤ (maxLoop vs m).toNat) ∧ (maxLoop vs m = m ∨ maxLoop vs m ∈ vs) := by
  induction vs with
  | nil => intro m; simp [maxLoop]
  | cons v vs ih =>
    intro m
    simp only [maxLoop]
    obtain ⟨h1, h2, h3⟩ := ih (if m.toNat < v.toNat then v else m)
    have hm : m.toNat ≤ (if m.toNat < v.toNat then v else m).toNat ∧
        v.toNat ≤ (if m.toNat < v.toNat then v else m).toNat := by split <;> omega
    refine ⟨by omega, ?_, ?_⟩
    · intro u hu
      rcases List.mem_cons.1 hu with rfl | hu
      · omega
      · exact h2 u hu
    · rcases h3 with h3 | h3
      · rw [h3]; split <;> simp
      · right; simp [h3]

/-- Building from an iterator stores all values, provided none is `2^64-1`. -/
theorem buildFrom_holds (vs : List W) (hv : ∀ v ∈ vs, v.toNat < 2 ^ 64 - 1) :
    ∃ cv, buildFrom vs = some cv ∧ cv.Holds vs := by
  obtain ⟨_, hmax, hmem⟩ := maxLoop_spec vs 0
  have hlt : (maxLoop vs 0).toNat < 2 ^ 64 - 1 := by
    rcases hmem with h | h
    · rw [h]; decide
    · exact hv _ h
  have hsucc : (maxLoop vs 0 + 1#64).toNat = (maxLoop vs 0).toNat + 1 := by
    rw [BitVec.toNat_add, show (1#64).toNat = 1 from rfl]; omega
  have hc := ceilLog2_spec (maxLoop vs 0 + 1#64)
  rw [hsucc] at hc
  obtain ⟨b, b', e, e', hh, -, -⟩ := fill_holds (ceilLog2 (maxLoop vs 0 + 1#64)) hc.2.2 vs
    (fun v hm => by have := hmax v hm; omega)
  exact ⟨_, by unfold buildFrom; simp only [e, e', Option.bind_eq_bind, Option.bind_some, Option.pure_def], hh⟩

theorem Holds.back {cv : CompactVector} {vs : List W} (h : cv.Holds vs) (hne : vs ≠ []) :
    cv.back = some (vs.getLast hne) := by
  have hl : 0 < vs.length := List.length_pos_iff.2 hne
  unfold CompactVector.back
  rw [h.size, if_neg (by omega), h.get (by omega)]
  rw [List.getLast_eq_getElem]

/-! ### Iterator -/

theorem deref_eq (cv : CompactVector) (it : Iter) (pos : Nat) (hblk : it.curBlock = pos / 64)
    (hsh : it.curShift = ((pos % 64 : Nat) : Int)) (hw : cv.width ≤ 64) :
    it.deref cv = (readField cv.bits pos cv.width cv.mask).map (fun v =>
      (v, { it with curVal := v, curBlock := (pos + cv.width) / 64,
                    curShift := (((pos + cv.width) % 64 : Nat) : Int) })) := by
  unfold Iter.deref readField
  have hs : it.curShift.toNat = pos % 64 := by omega
  simp only [hblk, hs, Option.bind_eq_bind, Option.pure_def]
  by_cases hc : pos % 64 + cv.width ≤ 64
  · rw [if_pos (by omega), if_pos hc]
    cases rd cv.bits (pos / 64) with
    | none => rfl
    | some a =>
      simp only [Option.bind_some, Option.map_some]
      by_cases h64 : it.curShift + (cv.width : Int) = 64
      · rw [if_pos h64]
        have e1 : (pos + cv.width) / 64 = pos / 64 + 1 := by omega
        have e2 : (((pos + cv.width) % 64 : Nat) : Int) = 0 := by omega
        rw [e1, e2]
      · rw [if_neg h64]
        have e1 : (pos + cv.width) / 64 = pos / 64 := by omega
        have e2 : (((pos + cv.width) % 64 : Nat) : Int) = it.curShift + (cv.width : Int) := by omega
        rw [e1, e2]
  · rw [if_neg (by omega), if_neg hc]
    cases rd cv.bits (pos / 64) with
    | none => rfl
    | some a =>
      cases rd cv.bits (pos / 64 + 1) with
      | none => rfl
      | some b =>
        simp only [Option.bind_some, Option.map_some]
        rw [if_neg (by omega)]
        have e1 : (pos + cv.width) / 64 = pos / 64 + 1 := by omega
        have e2 : (((pos + cv.width) % 64 : Nat) : Int) = (-((64 - pos % 64 : Nat) : Int)) + (cv.width : Int) := by
          omega
        rw [e1, e2]

theorem iter_take {cv : CompactVector} {vs : List W} (h : cv.Holds vs) (n : Nat) :
    ∀ (k : Nat) (it : Iter), k + n ≤ vs.length → it.curBlock = k * cv.width / 64 →
      it.curShift = ((k * cv.width % 64 : Nat) : Int) → Iter.take cv n it = some ((vs.drop k).take n) := by
  induction n with
  | zero => intros; simp [Iter.take]
  | succ n ih =>
    intro k it hk hb hs
    have hklt : k < vs.length := by omega
    have hg := h.get hklt
    unfold CompactVector.get at hg
    simp only [Iter.take]
    rw [deref_eq cv it _ hb hs h.wf.w64, hg]
    simp only [Option.map_some, Option.bind_eq_bind, Option.bind_some, Option.pure_def]
    rw [ih (k + 1) _ (by omega) (by simp [Iter.incr, Nat.add_mul]) (by simp [Iter.incr, Nat.add_mul])]
    simp only [Option.bind_some]
    rw [List.drop_eq_getElem_cons hklt, List.take_succ_cons]

theorem iter_toEnd {cv : CompactVector} {vs : List W} (h : cv.Holds vs) (n : Nat) :
    ∀ (k : Nat) (it : Iter), k ≤ vs.length → vs.length ≤ k + n → it.i = k →
      it.curBlock = k * cv.width / 64 →
      it.curShift = ((k * cv.width % 64 : Nat) : Int) → Iter.toEnd cv n it = some (vs.drop k) := by
  have hsz := h.size
  induction n with
  | zero =>
    intro k it hk hn hi _ _
    have e : k = vs.length := by omega
    subst e
    simp [Iter.toEnd, CompactVector.begin, hi, hsz]
  | succ n ih =>
    intro k it hk hn hi hb hs
    have hend : (cv.begin cv.size).i = cv.size := rfl
    simp only [Iter.toEnd]
    by_cases he : k = vs.length
    · rw [if_pos (by omega)]; subst he; simp
    rw [if_neg (by omega)]
    have hklt : k < vs.length := by omega
    have hg := h.get hklt
    unfold CompactVector.get at hg
    rw [deref_eq cv it _ hb hs h.wf.w64, hg]
    simp only [Option.map_some, Option.bind_eq_bind, Option.bind_some, Option.pure_def]
    rw [ih (k + 1) _ (by omega) (by omega) (by simp [Iter.incr, hi]) (by simp [Iter.incr, Nat.add_mul]) (by simp [Iter.incr, Nat.add_mul])]
    simp only [Option.bind_some]
    rw [List.drop_eq_getElem_cons hklt]

/-! ### access -/

theorem loadU64_spec {ws : List W} {o : Nat} (h : o / 8 + 1 < ws.length) :
    ∃ x, loadU64 ws o = some x ∧ ∀ j, j < 64 → x.getLsbD j = bitAt ws (8 * o + j) := by
  unfold loadU64
  split
  case isTrue h8 =>
    refine ⟨_, rd_of_lt (by omega), fun j hj => ?_⟩
    rw [getLsbD_getD _ _ _ hj]; congr 1; omega
  case isFalse h8 =>
    rw [rd_of_lt (by omega), rd_of_lt h]
    refine ⟨_, rfl, fun j hj => ?_⟩
    rw [BitVec.getLsbD_or, BitVec.getLsbD_ushiftRight, BitVec.getLsbD_shiftLeft]
    by_cases hc : j < 64 - 8 * (o % 8)
    · rw [getLsbD_getD _ _ _ (by omega)]
      have : 64 * (o / 8) + (8 * (o % 8) + j) = 8 * o + j := by omega
      simp [hc, this]
    · rw [BitVec.getLsbD_of_ge _ _ (by omega), getLsbD_getD _ _ _ (by omega)]
      have : 64 * (o / 8 + 1) + (j - (64 - 8 * (o % 8))) = 8 * o + j := by omega
      simp [hc, this, hj]

/-- `access` agrees with `operator[]` whenever the field fits in the loaded 8 bytes. -/
theorem access_eq_get {cv : CompactVector} (wf : cv.WF) {i : Nat} (hi : i < cv.size)
    (hfit : i * cv.width % 8 + cv.width ≤ 64) (junk : List W) (hj : junk ≠ []) :
    cv.access junk i = cv.get i := by
  obtain ⟨x, hx, hb⟩ := get_of_bits wf hi
  have hle := Nat.le_trans (mul_index_le (w := cv.width) hi) wf.len
  have hjl : 0 < junk.length := List.length_pos_iff.2 hj
  have h1 := wf.w1
  obtain ⟨y, hy, hyb⟩ := loadU64_spec (ws := cv.bits ++ junk) (o := i * cv.width / 8)
    (by rw [List.length_append]; omega)
  unfold access
  simp only [hy, Option.bind_eq_bind, Option.bind_some, Option.pure_def]
  rw [hx]; congr 1
  apply BitVec.eq_of_getLsbD_eq
  intro j hj64
  rw [hb, BitVec.getLsbD_and, BitVec.getLsbD_ushiftRight, wf.mask, getLsbD_maskOf wf.w64]
  by_cases hjw : j < cv.width
  · rw [hyb _ (by omega)]
    have : 8 * (i * cv.width / 8) + (i * cv.width % 8 + j) = i * cv.width + j := by omega
    rw [this, bitAt_append_left _ (by omega)]
    simp [hjw]
  · simp [hjw]

end CompactVector
end Tongrams
