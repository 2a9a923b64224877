import Verif.PropsDArray

/-!
# The Elias-Fano encoding of `ef_sequence` and `fast_ef_sequence`

`ef_sequence::build` (ef_sequence.hpp:19-52) and the private `build` of `fast_ef_sequence`
(fast_ef_sequence.hpp:439-479) contain the same encoding loop and the same `operator[]` and iterator.
They are modelled once here.  Values are naturals below 2^64; the shift left of the high part is reduced
modulo 2^64 as in the code.
-/

namespace Tongrams
open BitVector

/-- Specification: the sequence is non-decreasing. -/
def Spec.Sorted (vs : List Nat) : Prop := vs.Pairwise (· ≤ ·)

/-- Members shared by `ef_sequence` (ef_sequence.hpp:152-157) and `fast_ef_sequence`
(fast_ef_sequence.hpp:258-264). -/
structure EF where
  size : Nat
  l : Nat
  high : BitVector
  d1 : DArray
  low : BitVector

namespace EF

/-- `m_l`, ef_sequence.hpp:22, fast_ef_sequence.hpp:454. -/
def lowWidth (n u : Nat) : Nat := if n ≠ 0 ∧ u / n ≠ 0 then msb (BitVec.ofNat 64 (u / n)) else 0

/-- One iteration of the encoding loop, ef_sequence.hpp:29-42; `throw` is `Except.error ()`, undefined
behaviour is `none`. -/
def encodeStep (l i : Nat) (last v : Nat) (hi lo : BVBuilder) : Option (Except Unit (BVBuilder × BVBuilder)) :=
  if i ≠ 0 ∧ v < last then some (.error ())
  else do
    let lo ← if l ≠ 0 then lo.appendBits (BitVec.ofNat 64 v &&& ((1#64 <<< l) - 1#64)) l else some lo
    let hi ← hi.set (v / 2 ^ l + i) true
    return .ok (hi, lo)

/-- The encoding loop, ef_sequence.hpp:29-42, fast_ef_sequence.hpp:461-474. -/
def encodeLoop (l : Nat) : List Nat → Nat → Nat → BVBuilder → BVBuilder →
    Option (Except Unit (BVBuilder × BVBuilder))
  | [], _, _, hi, lo => some (.ok (hi, lo))
  | v :: vs, i, last, hi, lo =>
    (encodeStep l i last v hi lo).bind fun
      | .error e => some (.error e)
      | .ok (hi, lo) => encodeLoop l vs (i + 1) v hi lo

/-- `ef_sequence::build(begin, n, u)`, ef_sequence.hpp:19-52, without the optional zero index, which
nothing in the library reads. -/
def build (vs : List Nat) (u : Nat) : Option (Except Unit EF) :=
  let n := vs.length
  let l := lowWidth n u
  (encodeLoop l vs 0 0 (BVBuilder.new (n + u / 2 ^ l + 1) false) (BVBuilder.new 0 false)).bind fun
    | .error e => some (.error e)
    | .ok (hi, lo) =>
      (DArray.build id (ofBuilder hi)).map fun d1 =>
        .ok { size := n, l := l, high := ofBuilder hi, d1 := d1, low := ofBuilder lo }

/-- `operator[](i)`, ef_sequence.hpp:54-58, fast_ef_sequence.hpp:57-60. -/
def get (e : EF) (i : Nat) : Option Nat :=
  (e.d1.select id e.high i).bind fun s =>
    (e.low.getBits (i * e.l) e.l).map fun lo => ((s - i) <<< e.l) % 2 ^ 64 ||| lo.toNat

/-- `pair(i)`, ef_sequence.hpp:109-111. -/
def pair (e : EF) (i : Nat) : Option (Nat × Nat) :=
  (e.get i).bind fun a => (e.get (i + 1)).map fun b => (a, b)

/-- `iterator`, members: ef_sequence.hpp:98-106 (the mask and `m_chunks_in_word` are recomputed). -/
structure Iter where
  i : Nat
  highEnum : Option UnaryIter
  lowBuf : W
  chunksAvail : Nat

/-- `iterator(ef, i)`, ef_sequence.hpp:65-82. -/
def begin (e : EF) (i : Nat) : Option Iter :=
  let avail := if e.l ≠ 0 then 0 else e.d1.positions
  if e.d1.positions = 0 then some ⟨i, none, 0, avail⟩
  else
    (e.d1.select id e.high i).bind fun pos =>
      (UnaryIter.new e.high.bits pos).map fun he => ⟨i, some he, 0, avail⟩

/-- `iterator::next()`, ef_sequence.hpp:84-97; `m_chunks_avail--` on zero is followed by an assignment
except when `m_l = 0`, where `m_chunks_in_word - 1` wraps to 2^64-1. -/
def Iter.next (e : EF) (it : Iter) : Option (Nat × Iter) :=
  (if it.chunksAvail = 0 then
      (getWord64 e.low.bits (it.i * e.l)).map fun w => (w, if e.l ≠ 0 then 64 / e.l - 1 else 2 ^ 64 - 1)
    else some (it.lowBuf, it.chunksAvail - 1)).bind fun (buf, avail) =>
  it.highEnum.bind fun he =>
  he.next.bind fun (high, he) =>
    let low := buf &&& ((1#64 <<< e.l) - 1#64)
    some (((high - it.i) <<< e.l) % 2 ^ 64 ||| low.toNat, ⟨it.i + 1, some he, buf >>> e.l, avail⟩)

/-- `k` calls of `next()`. -/
def Iter.take (e : EF) : Nat → Iter → Option (List Nat)
  | 0, _ => some []
  | k + 1, it => (it.next e).bind fun (v, it) => (Iter.take e k it).map (v :: ·)

/-! ## Proofs -/

end EF

theorem BVBuilder.WF.bitAt {b : BVBuilder} (w : b.WF) (i : Nat) : Tongrams.bitAt b.bits i = b.toBools.getD i false := by
  by_cases hi : i < b.size
  · have : i < b.toBools.length := by rw [BVBuilder.length_toBools]; exact hi
    rw [List.getD_eq_getElem?_getD, List.getElem?_eq_getElem this, Option.getD_some, BVBuilder.getElem_toBools]
  · rw [w.high i (by omega), List.getD_eq_getElem?_getD,
      List.getElem?_eq_none (by rw [BVBuilder.length_toBools]; omega)]; rfl

theorem BVBuilder.set_bits {b : BVBuilder} (h : b.WF) {pos : Nat} (hp : pos < b.size) (v : Bool) :
    ∃ b', b.set pos v = some b' ∧ b'.WF ∧ b'.size = b.size ∧
      ∀ i, Tongrams.bitAt b'.bits i = if i = pos then v else Tongrams.bitAt b.bits i := by
  obtain ⟨b', e, w', t'⟩ := BVBuilder.set_wf h hp v
  have hsz : b'.size = b.size := by
    rw [← BVBuilder.length_toBools, t', List.length_set, BVBuilder.length_toBools]
  refine ⟨b', e, w', hsz, fun i => ?_⟩
  rw [w'.bitAt, h.bitAt, t', List.getD_eq_getElem?_getD, List.getD_eq_getElem?_getD, List.getElem?_set]
  by_cases hi : i = pos
  · subst hi
    rw [if_pos rfl, if_pos rfl, if_pos (by rw [BVBuilder.length_toBools]; exact hp)]; rfl
  · rw [if_neg (fun e => hi e.symm), if_neg hi]

theorem BVBuilder.appendBits_bits {b : BVBuilder} (h : b.WF) {len : Nat} {v : W} (hlen : len ≤ 64)
    (hv : v.toNat < 2 ^ len) :
    ∃ b', b.appendBits v len = some b' ∧ b'.WF ∧ b'.size = b.size + len ∧
      ∀ i, Tongrams.bitAt b'.bits i = if i < b.size then Tongrams.bitAt b.bits i else v.getLsbD (i - b.size) := by
  obtain ⟨b', e, w', t'⟩ := BVBuilder.appendBits_wf h hlen hv
  have hsz : b'.size = b.size + len := by
    rw [← BVBuilder.length_toBools, t', List.length_append, BVBuilder.length_toBools]; simp [Spec.bitsOf]
  refine ⟨b', e, w', hsz, fun i => ?_⟩
  rw [w'.bitAt, h.bitAt, t', List.getD_eq_getElem?_getD, List.getD_eq_getElem?_getD]
  by_cases hi : i < b.size
  · rw [if_pos hi, List.getElem?_append_left (by rw [BVBuilder.length_toBools]; exact hi)]
  · rw [if_neg hi, List.getElem?_append_right (by rw [BVBuilder.length_toBools]; omega), BVBuilder.length_toBools]
    by_cases h2 : i - b.size < len
    · rw [List.getElem?_eq_getElem (by simp [Spec.bitsOf, h2])]; simp [Spec.bitsOf]
    · rw [List.getElem?_eq_none (by simp [Spec.bitsOf]; omega), bit_high_false hv (by omega)]; rfl

/-- The `i`-th position of a strictly increasing enumeration of the ones is the `i`-th one. -/
theorem isSelect_of_strict {f : Nat → Bool} {n : Nat} {hp : Nat → Nat} (hs : ∀ i, i + 1 < n → hp i < hp (i + 1))
    (hf : ∀ p, f p = true ↔ ∃ i, i < n ∧ p = hp i) : ∀ i, i < n → Spec.IsSelect f i (hp i) := by
  have mono : ∀ d i, i + d + 1 < n → hp i < hp (i + d + 1) := by
    intro d
    induction d with
    | zero => intro i h; exact hs i h
    | succ d ih => intro i h; exact Nat.lt_trans (ih i (by omega)) (hs (i + d + 1) h)
  have lt : ∀ {i j}, i < j → j < n → hp i < hp j := by
    intro i j hij hj
    have := mono (j - i - 1) i (by omega)
    rwa [show i + (j - i - 1) + 1 = j by omega] at this
  intro i hi
  refine ⟨(hf _).2 ⟨i, hi, rfl⟩, ?_⟩
  induction i with
  | zero =>
    apply Spec.rank_false
    intro p hp'
    apply Bool.eq_false_iff.2
    intro hfp
    obtain ⟨j, hj, rfl⟩ := (hf p).1 hfp
    rcases Nat.eq_zero_or_pos j with h | h
    · subst h; omega
    · have := lt h hj; omega
  | succ i ih =>
    have h1 := ih (by omega)
    have hlt := hs i hi
    have h2 := Spec.rank_add f (hp i + 1) (hp (i + 1) - (hp i + 1))
    rw [show hp i + 1 + (hp (i + 1) - (hp i + 1)) = hp (i + 1) by omega, Spec.rank_succ, h1,
      (hf (hp i)).2 ⟨i, by omega, rfl⟩, Spec.rank_false (n := hp (i + 1) - (hp i + 1))] at h2
    · simpa using h2
    · intro p hp'
      apply Bool.eq_false_iff.2
      intro hfp
      obtain ⟨j, hj, e⟩ := (hf _).1 hfp
      rcases Nat.lt_trichotomy j i with h | h | h
      · have := lt h (by omega); omega
      · subst h; omega
      · rcases Nat.lt_or_ge j (i + 1) with h' | h'
        · omega
        · rcases Nat.eq_or_lt_of_le h' with h'' | h''
          · subst h''; omega
          · have := lt h'' hj; omega

namespace EF

/-- Position of the `i`-th one in the high bits. -/
def hpos (vs : List Nat) (l i : Nat) : Nat := vs.getD i 0 / 2 ^ l + i

theorem sorted_getD {vs : List Nat} (h : Spec.Sorted vs) {i j : Nat} (hij : i ≤ j) (hj : j < vs.length) :
    vs.getD i 0 ≤ vs.getD j 0 := by
  have hi : i < vs.length := by omega
  rw [List.getD_eq_getElem?_getD, List.getElem?_eq_getElem hi, List.getD_eq_getElem?_getD,
    List.getElem?_eq_getElem hj, Option.getD_some, Option.getD_some]
  rcases Nat.eq_or_lt_of_le hij with h1 | h1
  · subst h1; exact Nat.le_refl _
  · exact List.pairwise_iff_getElem.1 h i j hi hj h1

theorem getD_mem {vs : List Nat} {i : Nat} (h : i < vs.length) : vs.getD i 0 ∈ vs := by
  rw [List.getD_eq_getElem?_getD, List.getElem?_eq_getElem h, Option.getD_some]; exact List.getElem_mem _

theorem hpos_strict {vs : List Nat} (h : Spec.Sorted vs) (l : Nat) {i : Nat} (hi : i + 1 < vs.length) :
    hpos vs l i < hpos vs l (i + 1) := by
  have := Nat.div_le_div_right (c := 2 ^ l) (sorted_getD h (show i ≤ i + 1 by omega) hi)
  unfold hpos; omega

theorem hpos_mono {vs : List Nat} (h : Spec.Sorted vs) (l : Nat) {i j : Nat} (hij : i < j) (hj : j < vs.length) :
    hpos vs l i < hpos vs l j := by
  have := Nat.div_le_div_right (c := 2 ^ l) (sorted_getD h (Nat.le_of_lt hij) hj)
  unfold hpos; omega

/-- The bits of an Elias-Fano encoding of `vs` with `l` low bits. -/
structure Holds (e : EF) (vs : List Nat) : Prop where
  size : e.size = vs.length
  l : e.l < 64
  bound : ∀ v ∈ vs, v < 2 ^ 64
  sorted : Spec.Sorted vs
  highSize : e.high.size ≤ 64 * e.high.bits.length
  ones : ∀ p, bitAt e.high.bits p = true ↔ ∃ i, i < vs.length ∧ p = hpos vs e.l i
  room : ∀ i, i < vs.length → hpos vs e.l i + 1 < e.high.size
  d1 : e.d1.Built (Spec.onesIn (bitAt e.high.bits) 0 e.high.size)
  lowSize : vs.length * e.l ≤ 64 * e.low.bits.length
  lows : ∀ i, i < vs.length → ∀ j, j < e.l → bitAt e.low.bits (i * e.l + j) = (vs.getD i 0).testBit j

theorem lowWidth_lt (n : Nat) {u : Nat} (hu : u < 2 ^ 64) : lowWidth n u < 64 := by
  unfold lowWidth
  split
  case isTrue h =>
    apply msb_lt_64
    intro h0
    have := congrArg BitVec.toNat h0
    simp only [BitVec.toNat_ofNat] at this
    have h1 : u / n ≤ u := Nat.div_le_self _ _
    rw [Nat.mod_eq_of_lt (by omega)] at this
    exact h.2 this
  case isFalse => decide

theorem low_toNat (v : Nat) {l : Nat} (hl : l < 64) :
    (BitVec.ofNat 64 v &&& ((1#64 <<< l) - 1#64)).toNat < 2 ^ l ∧
    ∀ j, j < l → (BitVec.ofNat 64 v &&& ((1#64 <<< l) - 1#64)).getLsbD j = v.testBit j := by
  have hm : ((1#64 <<< l) - 1#64) = maskOf l := by unfold maskOf; rw [if_neg (by omega)]
  rw [hm]
  constructor
  · apply toNat_lt_of_bits
    intro j hj
    rw [BitVec.getLsbD_and, getLsbD_maskOf (by omega)]
    simp; omega
  · intro j hj
    rw [BitVec.getLsbD_and, getLsbD_maskOf (by omega), BitVec.getLsbD_ofNat]
    simp [hj, show j < 64 by omega]

/-- State of the encoding loop after the first `i` values of `vs`. -/
structure EncInv (vs : List Nat) (u l i : Nat) (hi lo : BVBuilder) : Prop where
  hwf : hi.WF
  hsz : hi.size = vs.length + u / 2 ^ l + 1
  hones : ∀ p, bitAt hi.bits p = true ↔ ∃ k, k < i ∧ p = hpos vs l k
  lwf : lo.WF
  lsz : lo.size = i * l
  lows : ∀ k, k < i → ∀ j, j < l → bitAt lo.bits (k * l + j) = (vs.getD k 0).testBit j

theorem encodeStep_ok {vs : List Nat} {u l i last v : Nat} {hi lo : BVBuilder} (h : EncInv vs u l i hi lo)
    (hl : l < 64) (hiv : i < vs.length) (hv : vs.getD i 0 = v) (hvu : v ≤ u) (hs : ¬ (i ≠ 0 ∧ v < last)) :
    ∃ hi' lo', encodeStep l i last v hi lo = some (.ok (hi', lo')) ∧ EncInv vs u l (i + 1) hi' lo' := by
  unfold encodeStep
  rw [if_neg hs]
  have hpos_lt : v / 2 ^ l + i < hi.size := by
    have := Nat.div_le_div_right (c := 2 ^ l) hvu
    rw [h.hsz]; omega
  obtain ⟨hi', e1, w1, s1, b1⟩ := BVBuilder.set_bits h.hwf hpos_lt true
  have hp : v / 2 ^ l + i = hpos vs l i := by unfold hpos; rw [hv]
  have hones : ∀ p, bitAt hi'.bits p = true ↔ ∃ k, k < i + 1 ∧ p = hpos vs l k := by
    intro p
    rw [b1, hp]
    by_cases hpi : p = hpos vs l i
    · rw [if_pos hpi]; exact ⟨fun _ => ⟨i, by omega, hpi⟩, fun _ => rfl⟩
    · rw [if_neg hpi, h.hones]
      constructor
      · rintro ⟨k, hk, e⟩; exact ⟨k, by omega, e⟩
      · rintro ⟨k, hk, e⟩
        rcases Nat.lt_or_ge k i with h' | h'
        · exact ⟨k, h', e⟩
        · have : k = i := by omega
          subst this; exact absurd e hpi
  by_cases hl0 : l = 0
  · refine ⟨hi', lo, ?_, ⟨w1, by rw [s1, h.hsz], hones, h.lwf, ?_, ?_⟩⟩
    · simp only [hl0, ne_eq, not_true_eq_false, if_false, Option.bind_eq_bind, Option.bind_some, Option.pure_def]
      rw [hl0] at e1
      rw [e1]; rfl
    · rw [h.lsz, hl0]; simp
    · intro k _ j hj; omega
  · obtain ⟨lt, lb⟩ := low_toNat v hl
    obtain ⟨lo', e2, w2, s2, b2⟩ := BVBuilder.appendBits_bits h.lwf (by omega) lt
    refine ⟨hi', lo', ?_, ⟨w1, by rw [s1, h.hsz], hones, w2, ?_, ?_⟩⟩
    · rw [if_pos hl0, e2]
      simp only [Option.bind_eq_bind, Option.bind_some, Option.pure_def]
      rw [e1]; rfl
    · rw [s2, h.lsz, Nat.succ_mul]
    · intro k hk j hj
      rw [b2, h.lsz]
      rcases Nat.lt_or_ge k i with h' | h'
      · rw [if_pos, h.lows k h' j hj]
        have := Nat.mul_le_mul_right l (show k + 1 ≤ i from h')
        rw [Nat.succ_mul] at this; omega
      · have : k = i := by omega
        subst this
        rw [if_neg (by omega), show k * l + j - k * l = j by omega, lb j hj, hv]

theorem encodeLoop_ok {vs : List Nat} {u l : Nat} (hl : l < 64) (hu : ∀ v ∈ vs, v ≤ u) :
    ∀ (ws pre : List Nat) (last : Nat) (hi lo : BVBuilder), vs = pre ++ ws → EncInv vs u l pre.length hi lo →
      Spec.Sorted vs → (pre ≠ [] → pre.getLast? = some last) →
      ∃ hi' lo', encodeLoop l ws pre.length last hi lo = some (.ok (hi', lo')) ∧ EncInv vs u l vs.length hi' lo' := by
  intro ws
  induction ws with
  | nil =>
    intro pre last hi lo hvs h _ _
    rw [List.append_nil] at hvs; subst hvs
    exact ⟨hi, lo, rfl, h⟩
  | cons v ws ih =>
    intro pre last hi lo hvs h hsort hlast
    have hlen : pre.length < vs.length := by rw [hvs]; simp
    have hv : vs.getD pre.length 0 = v := by rw [hvs]; simp
    have hns : ¬ (pre.length ≠ 0 ∧ v < last) := by
      rintro ⟨h0, hlt⟩
      have hne : pre ≠ [] := by intro e; subst e; exact h0 rfl
      have hl' := hlast hne
      have hmem : last ∈ pre := List.mem_of_getLast? hl'
      have := (List.pairwise_append.1 (hvs ▸ hsort)).2.2 last hmem v (by simp)
      omega
    obtain ⟨hi', lo', e, h'⟩ := encodeStep_ok h hl hlen hv (hu v (by rw [hvs]; simp)) hns
    obtain ⟨hi2, lo2, e2, h2⟩ := ih (pre ++ [v]) v hi' lo' (by rw [hvs]; simp) (by simpa using h') hsort (by simp)
    refine ⟨hi2, lo2, ?_, h2⟩
    unfold encodeLoop
    rw [e]
    simpa using e2

theorem encInv_init (vs : List Nat) (u l : Nat) :
    EncInv vs u l 0 (BVBuilder.new (vs.length + u / 2 ^ l + 1) false) (BVBuilder.new 0 false) := by
  obtain ⟨w1, t1⟩ := BVBuilder.new_wf (vs.length + u / 2 ^ l + 1) false
  obtain ⟨w2, t2⟩ := BVBuilder.new_wf 0 false
  refine ⟨w1, ?_, ?_, w2, ?_, by intro k hk; omega⟩
  · rw [← BVBuilder.length_toBools, t1]; simp
  · intro p
    rw [w1.bitAt, t1]
    constructor
    · intro h
      rw [List.getD_eq_getElem?_getD, List.getElem?_replicate] at h
      split at h <;> simp at h
    · rintro ⟨k, hk, _⟩; omega
  · rw [← BVBuilder.length_toBools, t2]; simp

/-- Building from a non-decreasing sequence bounded by the universe succeeds. -/
theorem build_ok {vs : List Nat} {u : Nat} (hs : Spec.Sorted vs) (hu : ∀ v ∈ vs, v ≤ u) (hu64 : u < 2 ^ 64) :
    ∃ e, build vs u = some (.ok e) ∧ e.Holds vs ∧ e.l = lowWidth vs.length u ∧
      e.high.size = vs.length + u / 2 ^ e.l + 1 := by
  have hl := lowWidth_lt vs.length hu64
  obtain ⟨hi, lo, e, h⟩ := encodeLoop_ok hl hu vs [] 0 _ _ (by simp) (encInv_init vs u _) hs (by simp)
  have hsz : (ofBuilder hi).size ≤ 64 * (ofBuilder hi).bits.length := h.hwf.le
  obtain ⟨d, ed, hd⟩ := DArray.build_spec (getter_id (ofBuilder hi).bits) (bv := ofBuilder hi) hsz
  refine ⟨⟨vs.length, lowWidth vs.length u, ofBuilder hi, d, ofBuilder lo⟩, ?_, ?_, rfl, h.hsz⟩
  · unfold build
    simp only [List.length_nil] at e
    simp only
    rw [e]
    simp only [Option.bind_some, ed, Option.map_some]
  · refine ⟨rfl, hl, fun v hv => Nat.lt_of_le_of_lt (hu v hv) hu64, hs, hsz, h.hones, ?_, hd, ?_, h.lows⟩
    · intro i hi'
      have := Nat.div_le_div_right (c := 2 ^ lowWidth vs.length u) (hu _ (getD_mem hi'))
      simp only [ofBuilder, h.hsz, hpos]; omega
    · have := h.lwf.le
      rw [h.lsz] at this; exact this

theorem encodeLoop_error {vs : List Nat} {u l : Nat} (hl : l < 64) (hu : ∀ v ∈ vs, v ≤ u) :
    ∀ (ws pre : List Nat) (last : Nat) (hi lo : BVBuilder), vs = pre ++ ws → EncInv vs u l pre.length hi lo →
      Spec.Sorted pre → ¬ Spec.Sorted vs → (pre ≠ [] → pre.getLast? = some last) →
      encodeLoop l ws pre.length last hi lo = some (.error ()) := by
  intro ws
  induction ws with
  | nil =>
    intro pre last hi lo hvs _ hp hn _
    rw [List.append_nil] at hvs; subst hvs
    exact absurd hp hn
  | cons v ws ih =>
    intro pre last hi lo hvs h hpre hn hlast
    have hlen : pre.length < vs.length := by rw [hvs]; simp
    have hv : vs.getD pre.length 0 = v := by rw [hvs]; simp
    unfold encodeLoop
    by_cases hc : pre.length ≠ 0 ∧ v < last
    · unfold encodeStep; rw [if_pos hc]; rfl
    · obtain ⟨hi', lo', e, h'⟩ := encodeStep_ok h hl hlen hv (hu v (by rw [hvs]; simp)) hc
      rw [e]
      have hsorted : Spec.Sorted (pre ++ [v]) := by
        refine List.pairwise_append.2 ⟨hpre, List.pairwise_singleton _ _, ?_⟩
        intro a ha b hb
        simp only [List.mem_singleton] at hb; subst hb
        have hne : pre ≠ [] := by intro e; subst e; simp at ha
        have hlen0 : pre.length ≠ 0 := by intro h0; exact hne (List.eq_nil_of_length_eq_zero h0)
        have hlast' := hlast hne
        have hle : a ≤ last := by
          obtain ⟨ini, rfl⟩ : ∃ ini, pre = ini ++ [last] := by
            exact (List.getLast?_eq_some_iff.1 hlast')
          rcases List.mem_append.1 ha with h1 | h1
          · exact (List.pairwise_append.1 hpre).2.2 a h1 last (by simp)
          · simp at h1; omega
        omega
      have := ih (pre ++ [v]) v hi' lo' (by rw [hvs]; simp) (by simpa using h') hsorted hn (by simp)
      simpa using this

/-- An unsorted sequence (of values bounded by the universe) is rejected by an exception. -/
theorem build_error {vs : List Nat} {u : Nat} (hs : ¬ Spec.Sorted vs) (hu : ∀ v ∈ vs, v ≤ u) (hu64 : u < 2 ^ 64) :
    build vs u = some (.error ()) := by
  have := encodeLoop_error (lowWidth_lt vs.length hu64) hu vs [] 0 _ _ (by simp) (encInv_init vs u _)
    List.Pairwise.nil hs (by simp)
  unfold build
  simp only [List.length_nil] at this
  simp only
  rw [this]; rfl

theorem Holds.isSelect {e : EF} {vs : List Nat} (h : e.Holds vs) {i : Nat} (hi : i < vs.length) :
    Spec.IsSelect (bitAt e.high.bits) i (hpos vs e.l i) :=
  isSelect_of_strict (n := vs.length) (hp := hpos vs e.l) (fun _ hi => hpos_strict h.sorted e.l hi) h.ones i hi

theorem Holds.select {e : EF} {vs : List Nat} (h : e.Holds vs) {i : Nat} (hi : i < vs.length) :
    e.d1.select id e.high i = some (hpos vs e.l i) :=
  DArray.select_spec (getter_id _) h.highSize h.d1 (by have := h.room i hi; omega) (h.isSelect hi)

theorem Holds.positions {e : EF} {vs : List Nat} (h : e.Holds vs) : e.d1.positions = vs.length := by
  rw [h.d1.positions, length_onesIn]
  cases hn : vs.length with
  | zero =>
    apply Spec.rank_false; intro p _
    apply Bool.eq_false_iff.2; intro hp
    obtain ⟨i, hi, _⟩ := (h.ones p).1 hp; omega
  | succ n =>
    have hi : n < vs.length := by omega
    have h1 := h.isSelect hi
    have h2 := h.room n hi
    have h3 := Spec.rank_add (bitAt e.high.bits) (hpos vs e.l n + 1) (e.high.size - (hpos vs e.l n + 1))
    rw [show hpos vs e.l n + 1 + (e.high.size - (hpos vs e.l n + 1)) = e.high.size by omega, Spec.rank_succ, h1.1,
      h1.2, Spec.rank_false (n := e.high.size - (hpos vs e.l n + 1))] at h3
    · simpa using h3
    · intro p _
      apply Bool.eq_false_iff.2; intro hp
      obtain ⟨i, hi', e'⟩ := (h.ones _).1 hp
      rcases Nat.lt_or_ge i n with h4 | h4
      · have := hpos_mono h.sorted e.l h4 hi; omega
      · have : i = n := by omega
        subst this; omega

theorem join_eq {v l : Nat} (hv : v < 2 ^ 64) {x : Nat} (hx : ∀ j, x.testBit j = (decide (j < l) && v.testBit j)) :
    ((v / 2 ^ l) <<< l) % 2 ^ 64 ||| x = v := by
  have h1 : (v / 2 ^ l) <<< l % 2 ^ 64 = (v / 2 ^ l) <<< l := by
    apply Nat.mod_eq_of_lt
    rw [Nat.shiftLeft_eq]
    exact Nat.lt_of_le_of_lt (Nat.div_mul_le_self _ _) hv
  rw [h1]
  apply Nat.eq_of_testBit_eq
  intro j
  rw [Nat.testBit_or, hx, Nat.testBit_shiftLeft, Nat.testBit_div_two_pow]
  by_cases hj : j < l
  · have : ¬ j ≥ l := by omega
    simp [hj, this]
  · have hge : j ≥ l := by omega
    simp [hj, hge]

theorem Holds.low {e : EF} {vs : List Nat} (h : e.Holds vs) {i : Nat} (hi : i < vs.length) :
    ∃ x, e.low.getBits (i * e.l) e.l = some x ∧
      ∀ j, x.toNat.testBit j = (decide (j < e.l) && (vs.getD i 0).testBit j) := by
  have hsz := h.lowSize
  have hl := h.l
  have : (i + 1) * e.l ≤ vs.length * e.l := Nat.mul_le_mul_right _ hi
  rw [Nat.succ_mul] at this
  obtain ⟨x, ex, hx⟩ := BitVector.getBits_spec (bv := e.low) (pos := i * e.l) (len := e.l) (by omega) (by omega)
  refine ⟨x, ex, fun j => ?_⟩
  rw [BitVec.testBit_toNat, hx]
  by_cases hj : j < e.l
  · rw [h.lows i hi j hj]
  · simp [hj]

/-- `operator[]` returns the values. -/
theorem Holds.get {e : EF} {vs : List Nat} (h : e.Holds vs) {i : Nat} (hi : i < vs.length) :
    e.get i = some (vs.getD i 0) := by
  obtain ⟨x, ex, hx⟩ := h.low hi
  unfold EF.get
  rw [h.select hi, Option.bind_some, ex, Option.map_some]
  have : hpos vs e.l i - i = vs.getD i 0 / 2 ^ e.l := by unfold hpos; exact Nat.add_sub_cancel _ _
  rw [this, join_eq (h.bound _ (getD_mem hi)) hx]

/-! ### The iterator -/

/-- What the iterator has buffered when its next index is `i`. -/
structure ItInv (e : EF) (vs : List Nat) (it : Iter) : Prop where
  he : ∃ u c, it.highEnum = some u ∧ u.ws = e.high.bits ∧ u.At c ∧ (it.i < vs.length → c ≤ hpos vs e.l it.i) ∧
    (∀ p, c ≤ p → it.i < vs.length → p < hpos vs e.l it.i → bitAt e.high.bits p = false)
  zero : e.l = 0 → it.lowBuf = 0 ∧ vs.length ≤ it.i + it.chunksAvail
  buf : ∀ j, j < it.chunksAvail * e.l → it.i * e.l + j < vs.length * e.l →
    it.lowBuf.getLsbD j = bitAt e.low.bits (it.i * e.l + j)
  avail : e.l ≠ 0 → it.chunksAvail * e.l ≤ 64

theorem begin_spec {e : EF} {vs : List Nat} (h : e.Holds vs) {i : Nat} (hi : i < vs.length) :
    ∃ it, e.begin i = some it ∧ ItInv e vs it ∧ it.i = i := by
  have hp := h.positions
  unfold EF.begin
  rw [if_neg (by omega), h.select hi, Option.bind_some]
  have hroom := h.room i hi
  have hsz := h.highSize
  obtain ⟨u, eu, hw, hpu, hat⟩ := UnaryIter.new_at (ws := e.high.bits) (pos := hpos vs e.l i) (by omega)
  rw [eu, Option.map_some]
  refine ⟨_, rfl, ⟨⟨u, _, rfl, hw, hat, fun _ => Nat.le_refl _, fun p h1 _ h2 => absurd h1 (by simp only at h2; omega)⟩, ?_, ?_, ?_⟩, rfl⟩
  · intro h0; simp only [h0, ne_eq, not_true_eq_false, if_false]; exact ⟨by simp, by omega⟩
  · intro j hj _
    simp only at hj
    by_cases h0 : e.l = 0
    · rw [h0] at hj; simp at hj
    · rw [if_pos h0] at hj; simp at hj
  · intro h0; simp [h0]

theorem next_high {e : EF} {vs : List Nat} (h : e.Holds vs) {i c : Nat} (hi : i < vs.length) {u : UnaryIter}
    (hw : u.ws = e.high.bits) (hat : u.At c) (hc : c ≤ hpos vs e.l i)
    (hz : ∀ p, c ≤ p → p < hpos vs e.l i → bitAt e.high.bits p = false) :
    ∃ u', u.next = some (hpos vs e.l i, u') ∧ u'.ws = e.high.bits ∧ u'.position = hpos vs e.l i ∧
      u'.At (hpos vs e.l i + 1) ∧ (i + 1 < vs.length → hpos vs e.l i + 1 ≤ hpos vs e.l (i + 1)) ∧
      (∀ p, hpos vs e.l i + 1 ≤ p → i + 1 < vs.length → p < hpos vs e.l (i + 1) → bitAt e.high.bits p = false) := by
  obtain ⟨u', eu, hw', hp', hat'⟩ := UnaryIter.next_spec hat (q := hpos vs e.l i)
    (by rw [hw]; exact (h.ones _).2 ⟨i, hi, rfl⟩) hc (by rw [hw]; exact hz)
  refine ⟨u', eu, by rw [hw', hw], hp', hat', fun h1 => hpos_strict h.sorted e.l h1, ?_⟩
  intro p h1 h2 h3
  apply Bool.eq_false_iff.2; intro hp
  obtain ⟨k, hk, e'⟩ := (h.ones p).1 hp
  rcases Nat.lt_trichotomy k i with h4 | h4 | h4
  · have := hpos_mono h.sorted e.l h4 hi; omega
  · subst h4; omega
  · rcases Nat.eq_or_lt_of_le (show i + 1 ≤ k from h4) with h5 | h5
    · subst h5; omega
    · have := hpos_mono h.sorted e.l h5 hk; omega

/-- Refilling (or not) the buffer of low bits: what `next()` does before using it. -/
def Iter.refill (e : EF) (it : Iter) : Option (W × Nat) :=
  if it.chunksAvail = 0 then
      (getWord64 e.low.bits (it.i * e.l)).map fun w => (w, if e.l ≠ 0 then 64 / e.l - 1 else 2 ^ 64 - 1)
    else some (it.lowBuf, it.chunksAvail - 1)

theorem refill_spec {e : EF} {vs : List Nat} (h : e.Holds vs) {it : Iter}
    (zero : e.l = 0 → it.lowBuf = 0 ∧ vs.length ≤ it.i + it.chunksAvail)
    (hb : ∀ j, j < it.chunksAvail * e.l → it.i * e.l + j < vs.length * e.l →
      it.lowBuf.getLsbD j = bitAt e.low.bits (it.i * e.l + j))
    (hav : e.l ≠ 0 → it.chunksAvail * e.l ≤ 64) (hi : it.i < vs.length) :
    ∃ buf avail, it.refill e = some (buf, avail) ∧
      (e.l = 0 → buf = 0 ∧ vs.length ≤ it.i + 1 + avail) ∧
      (e.l ≠ 0 → (avail + 1) * e.l ≤ 64) ∧
      (∀ j, j < (avail + 1) * e.l → it.i * e.l + j < vs.length * e.l →
        buf.getLsbD j = bitAt e.low.bits (it.i * e.l + j)) := by
  have hl := h.l
  unfold Iter.refill
  by_cases ha : it.chunksAvail = 0
  · rw [if_pos ha]
    by_cases h0 : e.l = 0
    · have := (zero h0).2; omega
    · have h1 : (it.i + 1) * e.l ≤ vs.length * e.l := Nat.mul_le_mul_right _ hi
      rw [Nat.succ_mul] at h1
      have := h.lowSize
      obtain ⟨x, ex, hx⟩ := BitVector.getWord64_spec (ws := e.low.bits) (pos := it.i * e.l) (by omega)
      have hdiv : 64 / e.l ≥ 1 := Nat.div_pos (by omega) (by omega)
      have hmul : 64 / e.l * e.l ≤ 64 := Nat.div_mul_le_self _ _
      refine ⟨x, 64 / e.l - 1, ?_, fun h' => absurd h' h0, fun _ => ?_, ?_⟩
      · rw [ex, Option.map_some, if_pos h0]
      · rw [Nat.sub_add_cancel hdiv]; exact hmul
      · rw [Nat.sub_add_cancel hdiv]
        intro j hj _; exact hx j (by omega)
  · rw [if_neg ha]
    refine ⟨it.lowBuf, it.chunksAvail - 1, rfl, fun h0 => ⟨(zero h0).1, by have := (zero h0).2; omega⟩, ?_, ?_⟩
    · intro h0; rw [Nat.sub_add_cancel (by omega)]; exact hav h0
    · rw [Nat.sub_add_cancel (by omega)]; exact hb

theorem next_spec {e : EF} {vs : List Nat} (h : e.Holds vs) {it : Iter} (hv : ItInv e vs it) (hi : it.i < vs.length) :
    ∃ it', it.next e = some (vs.getD it.i 0, it') ∧ ItInv e vs it' ∧ it'.i = it.i + 1 := by
  obtain ⟨buf, avail, er, r1, r2, r3⟩ := refill_spec h hv.zero hv.buf hv.avail hi
  obtain ⟨u, c, hu, hw, hat, hc, hz⟩ := hv.he
  obtain ⟨u', eu, hw', _, hat', hc', hz'⟩ := next_high h hi hw hat (hc hi) (fun p h1 h2 => hz p h1 hi h2)
  have hlow : (buf &&& ((1#64 <<< e.l) - 1#64)).toNat.testBit = fun j => (decide (j < e.l) && (vs.getD it.i 0).testBit j) := by
    funext j
    rw [BitVec.testBit_toNat, BitVec.getLsbD_and,
      show ((1#64 <<< e.l) - 1#64) = maskOf e.l by unfold maskOf; rw [if_neg (by have := h.l; omega)],
      getLsbD_maskOf (by have := h.l; omega)]
    by_cases hj : j < e.l
    · have h1 : (it.i + 1) * e.l ≤ vs.length * e.l := Nat.mul_le_mul_right _ hi
      rw [Nat.succ_mul] at h1
      rw [r3 j (by rw [Nat.succ_mul]; omega) (by omega), h.lows _ hi j hj]; simp [hj]
    · simp [hj]
  refine ⟨⟨it.i + 1, some u', buf >>> e.l, avail⟩, ?_, ⟨⟨u', _, rfl, hw', hat', hc', hz'⟩, ?_, ?_, ?_⟩, rfl⟩
  · unfold Iter.next
    rw [show (if it.chunksAvail = 0 then
      (getWord64 e.low.bits (it.i * e.l)).map fun w => (w, if e.l ≠ 0 then 64 / e.l - 1 else 2 ^ 64 - 1)
    else some (it.lowBuf, it.chunksAvail - 1)) = it.refill e from rfl, er, Option.bind_some]
    simp only
    rw [hu, Option.bind_some, eu, Option.bind_some]
    simp only
    have : hpos vs e.l it.i - it.i = vs.getD it.i 0 / 2 ^ e.l := by unfold hpos; exact Nat.add_sub_cancel _ _
    rw [this, join_eq (h.bound _ (getD_mem hi)) (fun j => by rw [hlow])]
  · intro h0; have := r1 h0; simp only [this.1, h0]; exact ⟨by simp, this.2⟩
  · intro j hj hlt
    simp only at hj hlt ⊢
    rw [BitVec.getLsbD_ushiftRight, r3 (e.l + j) (by rw [Nat.succ_mul]; omega) (by rw [Nat.succ_mul] at hlt; omega)]
    congr 1; rw [Nat.succ_mul]; omega
  · intro h0; have := r2 h0; rw [Nat.succ_mul] at this; simp only; omega

theorem iter_take {e : EF} {vs : List Nat} (h : e.Holds vs) (k : Nat) :
    ∀ it : Iter, ItInv e vs it → it.i + k ≤ vs.length →
      Iter.take e k it = some ((vs.drop it.i).take k) := by
  induction k with
  | zero => intro it _ _; simp [Iter.take]
  | succ k ih =>
    intro it hv hk
    obtain ⟨it', en, hv', hi'⟩ := next_spec h hv (by omega)
    unfold Iter.take
    rw [en, Option.bind_some]
    simp only
    rw [ih it' hv' (by omega), Option.map_some, hi']
    congr 1
    rw [List.drop_eq_getElem_cons (show it.i < vs.length by omega), List.take_succ_cons]
    congr 1
    rw [List.getD_eq_getElem?_getD, List.getElem?_eq_getElem (by omega)]; rfl

end EF

/-! ## C12 -/

/-- `ef_sequence`: construction from a non-decreasing sequence bounded by its universe succeeds;
`size()`, `operator[]`, `pair` and iteration from any index return the input. -/
theorem C12_ef_sequence_is_input {vs : List Nat} {u : Nat} (hs : Spec.Sorted vs) (hu : ∀ v ∈ vs, v ≤ u)
    (hu64 : u < 2 ^ 64) :
    ∃ e, EF.build vs u = some (.ok e) ∧ e.size = vs.length ∧
      (∀ i (h : i < vs.length), e.get i = some vs[i]) ∧
      (∀ i (h : i + 1 < vs.length), e.pair i = some (vs[i], vs[i + 1])) ∧
      (∀ i k, i < vs.length → i + k ≤ vs.length →
        ∃ it, e.begin i = some it ∧ it.take e k = some ((vs.drop i).take k)) := by
  obtain ⟨e, eb, h, _⟩ := EF.build_ok hs hu hu64
  have hget : ∀ i (h : i < vs.length), e.get i = some vs[i] := by
    intro i hi
    rw [h.get hi, List.getD_eq_getElem?_getD, List.getElem?_eq_getElem hi]; rfl
  refine ⟨e, eb, h.size, hget, ?_, ?_⟩
  · intro i hi
    unfold EF.pair
    rw [hget i (by omega), Option.bind_some, hget (i + 1) hi, Option.map_some]
  · intro i k hi hk
    obtain ⟨it, ei, hv, hii⟩ := EF.begin_spec h hi
    refine ⟨it, ei, ?_⟩
    rw [EF.iter_take h k it hv (by omega), hii]

/-- An unsorted input (within the universe) makes `build` throw. -/
theorem C12_unsorted_throws {vs : List Nat} {u : Nat} (hs : ¬ Spec.Sorted vs) (hu : ∀ v ∈ vs, v ≤ u)
    (hu64 : u < 2 ^ 64) : EF.build vs u = some (.error ()) := EF.build_error hs hu hu64

/-- Non-vacuity: a sequence with repetitions, large gaps and values up to 2^64 - 1; and an unsorted one. -/
example : Spec.Sorted [0, 0, 7, 7, 100000, 2 ^ 64 - 1] ∧ (∀ v ∈ [0, 0, 7, 7, 100000, 2 ^ 64 - 1], v ≤ 2 ^ 64 - 1) ∧
    ¬ Spec.Sorted [3, 2] := by
  unfold Spec.Sorted; decide

/-- The library never builds an `ef_sequence` with a value above its universe; if it did, the write into
the high bits would leave the allocated words (here 1 value 1000, universe 0). -/
theorem C12_value_above_universe_defect : (EF.build [1000] 0).isNone = true := by decide +kernel

end Tongrams
