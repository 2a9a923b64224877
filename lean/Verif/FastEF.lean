import Verif.EliasFano
import Verif.MphTables

/-!
# include/sequences/fast_ef_sequence.hpp

Values, ids and positions are naturals (the sum `id + prev_upper` is reduced modulo 2^64 as in the code).
`global::not_found` is `2^64 - 1`.
-/

namespace Tongrams
open BitVector

/-- `global::not_found` as a number. -/
def NF : Nat := 2 ^ 64 - 1

namespace EF

/-- STEP (1) of the optimized scan, fast_ef_sequence.hpp:290-297; `some none`: not found.  Every round
calls `next`, which moves to a later bit, so `64 * words` rounds suffice. -/
def scanHigh (highId hi : Nat) : Nat → Nat → Nat → UnaryIter → Option (Option (Nat × Nat × UnaryIter))
  | 0, _, _, _ => none
  | fuel + 1, lo, v, it =>
    if v - lo < highId then
      if lo + 1 = hi then some none
      else it.next.bind fun r => scanHigh highId hi fuel (lo + 1) r.1 r.2
    else some (some (lo, v, it))

/-- STEP (2) of the optimized scan, fast_ef_sequence.hpp:329-349. -/
def scanLow (e : EF) (lowId : W) : Nat → Nat → W → Nat → Option Nat
  | 0, _, _, _ => some NF
  | run + 1, lo, word, avail =>
    (Iter.refill e ⟨lo, none, word, avail⟩).bind fun r =>
      let cur := r.1 &&& ((1#64 <<< e.l) - 1#64)
      if cur = lowId then some lo
      else if lowId.toNat < cur.toNat then some NF
      else scanLow e lowId run (lo + 1) (r.1 >>> e.l) r.2

/-- After STEP (1), fast_ef_sequence.hpp:301-349. -/
def scanTail (e : EF) (hi id : Nat) : Option (Nat × Nat × UnaryIter) → Option Nat
  | none => some NF
  | some (lo, v, it) =>
    if v - lo > id / 2 ^ e.l then some NF
    else
      (it.skip0 1).bind fun it =>
        scanLow e (BitVec.ofNat 64 id &&& ((1#64 <<< e.l) - 1#64)) (min (it.position - v) (if lo ≤ hi then hi - lo else hi + 2 ^ 64 - lo)) lo 0
          (if e.l ≠ 0 then 0 else e.d1.positions)

/-- The optimized `scan(lo, hi, id, pos, lower_bound)`, fast_ef_sequence.hpp:280-350. -/
def scan (e : EF) (lo hi id lowerBound : Nat) : Option Nat :=
  (UnaryIter.new e.high.bits (lo + lowerBound / 2 ^ e.l)).bind fun it =>
  it.next.bind fun r =>
  (scanHigh (id / 2 ^ e.l) hi (64 * e.high.bits.length + 1) lo r.1 r.2).bind (scanTail e hi id)

/-- `bsearch_scan`, fast_ef_sequence.hpp:352-370. -/
def bsearchScan (e : EF) (lo hi id lowerBound : Nat) : Option Nat :=
  if h : hi - lo > 64 then
    (e.get ((lo + hi) / 2)).bind fun v =>
      if id = v then some ((lo + hi) / 2)
      else if id < v then bsearchScan e lo ((lo + hi) / 2) id lowerBound
      else bsearchScan e ((lo + hi) / 2 + 1) hi id v
  else e.scan lo hi id lowerBound
termination_by hi - lo

end EF

/-- `fast_ef_sequence`, members: fast_ef_sequence.hpp:257-263.  `offsets` is `none` when the table was never
built (no range of 128 or more). -/
structure FastEF where
  ef : EF
  offsets : Option (UTable Nat 64)
  samplings : List Nat

namespace FastEF

/-- The `do .. while (!run)` loop, fast_ef_sequence.hpp:41-46; `none`: the iterator runs past the end of
`pointers`.  Pointers never decrease, so the subtraction does not wrap. -/
def advance : List Nat → Nat → Option (Nat × Nat × List Nat)
  | [], _ => none
  | p :: ps, e => if p - e ≠ 0 then some (p - e, p, ps) else advance ps p

/-- The loop over the grams, fast_ef_sequence.hpp:38-52. -/
def groupLoop : List Nat → List Nat → Nat → Nat → Nat → Nat → List Nat → Option (List Nat)
  | [], _, _, _, _, _, vals => some vals
  | g :: gs, rest, e, run, within, pu, vals =>
    if within = run then
      (advance rest e).bind fun r =>
        groupLoop gs r.2.2 r.2.1 r.1 1 (vals.getLast?.getD 0) (vals ++ [(g + vals.getLast?.getD 0) % 2 ^ 64])
    else groupLoop gs rest e run (within + 1) pu (vals ++ [(g + pu) % 2 ^ 64])

/-- The values to be encoded, fast_ef_sequence.hpp:29-52. -/
def groupVals (grams ptrs : List Nat) : Option (List Nat) :=
  match ptrs with
  | s :: e :: rest => groupLoop grams rest e (e - s) 0 0 []
  | _ => none

/-- Inner loop of `fill_samplings`, fast_ef_sequence.hpp:408-418: `nodes` pops from the queue. -/
def fillLevel (vals : List Nat) : Nat → List (Nat × Nat) → List Nat → Option (List (Nat × Nat) × List Nat)
  | 0, q, s => some (q, s)
  | _ + 1, [], _ => none
  | k + 1, r :: q, s =>
    (vals[(r.1 + r.2) / 2]?).bind fun v =>
      fillLevel vals k (q ++ [(r.1, (r.1 + r.2) / 2), ((r.1 + r.2) / 2 + 1, r.2)]) (s ++ [v])

/-- Outer loop of `fill_samplings`, fast_ef_sequence.hpp:406-419. -/
def fillLevels (vals : List Nat) : Nat → Nat → List (Nat × Nat) → List Nat → Option (List Nat)
  | 0, _, _, s => some s
  | r + 1, h, q, s => (fillLevel vals (2 ^ h) q s).bind fun x => fillLevels vals r (h + 1) x.1 x.2

/-- `fill_samplings`, fast_ef_sequence.hpp:397-420. -/
def fillSamplings (lo hi height : Nat) (vals samplings : List Nat) : Option (List Nat) :=
  fillLevels vals height 0 [(lo, hi)] samplings

/-- `util::ceil_log2(range) - log2_sampling_threshold`, fast_ef_sequence.hpp:121 and 438. -/
def treeHeight (run : Nat) : Nat := ceilLog2 (BitVec.ofNat 64 run) - 7

/-- The loop over the pointers, fast_ef_sequence.hpp:430-445; returns `from`, `to`, `samplings`. -/
def sampleLoop (vals : List Nat) : List Nat → Nat → List Nat → List Nat → List Nat → Option (List Nat × List Nat × List Nat)
  | [], _, from_, to_, s => some (from_, to_, s)
  | e :: ps, b, from_, to_, s =>
    if e - b ≥ 128 then
      (if b ≠ 0 then vals[b - 1]? else some 0).bind fun pu =>
      (fillSamplings b e (treeHeight (e - b)) vals (s ++ [pu])).bind fun s' =>
        sampleLoop vals ps e (from_ ++ [b]) (to_ ++ [s.length]) s'
    else sampleLoop vals ps e from_ to_ s

/-- `build(begin, n, u, pointers)`, fast_ef_sequence.hpp:423-478, `h` being the hash function built over the
beginnings of the long ranges (449). -/
def buildVals (h : Mphf Nat 64) (vals ptrs : List Nat) : Option (Except Unit FastEF) :=
  match ptrs with
  | [] => none
  | p :: ps =>
    (sampleLoop vals ps p [] [] []).bind fun r =>
    (if r.1.length ≠ 0 then (UTable.build h r.1 (r.2.1.map (BitVec.ofNat 64))).map some else some none).bind fun t =>
    vals.getLast?.bind fun u =>
    (EF.build vals u).map fun
      | .error () => .error ()
      | .ok e => .ok { ef := e, offsets := t, samplings := r.2.2 }

/-- The beginnings of the ranges of at least 128 grams: the keys of `m_offsets` (`from`, 430-445). -/
def longBegins : List Nat → List Nat
  | b :: e :: ps => if e - b ≥ 128 then b :: longBegins (e :: ps) else longBegins (e :: ps)
  | _ => []

/-- `build(grams_begin, num_grams, pointers, order)`, fast_ef_sequence.hpp:26-55. -/
def build (h : Mphf Nat 64) (grams ptrs : List Nat) : Option (Except Unit FastEF) :=
  (groupVals grams ptrs).bind fun vals => buildVals h vals ptrs

/-- `operator[]`, fast_ef_sequence.hpp:57-60. -/
def get (f : FastEF) (i : Nat) : Option Nat := f.ef.get i

/-- The descent through the samples, fast_ef_sequence.hpp:123-141. -/
def treeSearch (f : FastEF) (base id : Nat) : Nat → Nat → Nat → Nat → Nat → Option Nat
  | 0, _, lo, hi, lowerBound => f.ef.bsearchScan lo hi id lowerBound
  | h + 1, i, lo, hi, lowerBound =>
    (f.samplings[base + i]?).bind fun sample =>
      if id = sample then some ((lo + hi) / 2)
      else if id < sample then treeSearch f base id h (2 * i) lo ((lo + hi) / 2) lowerBound
      else treeSearch f base id h (2 * i + 1) ((lo + hi) / 2 + 1) hi sample

/-- `find(r, id, pos)`, fast_ef_sequence.hpp:66-147 (asserts disabled). -/
def find (f : FastEF) (lo hi id : Nat) : Option Nat :=
  if hi - lo ≥ 128 then
    f.offsets.bind fun t =>
    (t.lookup lo).bind fun base =>
    (f.samplings[base.toNat]?).bind fun pu =>
      treeSearch f base.toNat ((id + pu) % 2 ^ 64) (treeHeight (hi - lo)) 1 lo hi pu
  else
    (if lo ≠ 0 then f.ef.get (lo - 1) else some 0).bind fun pu =>
      f.ef.bsearchScan lo hi ((id + pu) % 2 ^ 64) pu

end FastEF

/-- Specification of a search for `x` in positions `lo..hi` of `vs`. -/
def Spec.SearchResult (vs : List Nat) (lo hi x r : Nat) : Prop :=
  (lo ≤ r ∧ r < hi ∧ vs.getD r 0 = x) ∨ (r = 2 ^ 64 - 1 ∧ ∀ p, lo ≤ p → p < hi → vs.getD p 0 ≠ x)

/-! ## Proofs: the scan -/

namespace EF

theorem scanHigh_spec {e : EF} {vs : List Nat} (h : e.Holds vs) {highId hi : Nat} (hhi : hi ≤ vs.length) :
    ∀ (fuel lo : Nat) (it : UnaryIter), lo < hi → hi - lo < fuel → it.ws = e.high.bits →
      it.position = hpos vs e.l lo → it.At (hpos vs e.l lo + 1) →
      ∃ r, scanHigh highId hi fuel lo (hpos vs e.l lo) it = some r ∧
        ((r = none ∧ ∀ p, lo ≤ p → p < hi → vs.getD p 0 / 2 ^ e.l < highId) ∨
         ∃ lo' it', r = some (lo', hpos vs e.l lo', it') ∧ lo ≤ lo' ∧ lo' < hi ∧
          (∀ p, lo ≤ p → p < lo' → vs.getD p 0 / 2 ^ e.l < highId) ∧ highId ≤ vs.getD lo' 0 / 2 ^ e.l ∧
          it'.ws = e.high.bits ∧ it'.position = hpos vs e.l lo' ∧ it'.At (hpos vs e.l lo' + 1)) := by
  intro fuel
  induction fuel with
  | zero => intro lo it _ h2; omega
  | succ fuel ih =>
    intro lo it hlo hf hw hp hat
    have hsub : hpos vs e.l lo - lo = vs.getD lo 0 / 2 ^ e.l := by unfold hpos; exact Nat.add_sub_cancel _ _
    unfold scanHigh
    rw [hsub]
    by_cases hc : vs.getD lo 0 / 2 ^ e.l < highId
    · rw [if_pos hc]
      by_cases h1 : lo + 1 = hi
      · rw [if_pos h1]
        refine ⟨none, rfl, Or.inl ⟨rfl, ?_⟩⟩
        intro p q1 q2
        have : p = lo := by omega
        subst this; exact hc
      · rw [if_neg h1]
        have hz : ∀ p, hpos vs e.l lo + 1 ≤ p → p < hpos vs e.l (lo + 1) → bitAt e.high.bits p = false := by
          intro p h1 h3
          apply Bool.eq_false_iff.2; intro hp
          obtain ⟨k, hk, e'⟩ := (h.ones p).1 hp
          rcases Nat.lt_trichotomy k lo with h4 | h4 | h4
          · have := hpos_mono h.sorted e.l h4 (by omega); omega
          · subst h4; omega
          · rcases Nat.eq_or_lt_of_le (show lo + 1 ≤ k from h4) with h5 | h5
            · subst h5; omega
            · have := hpos_mono h.sorted e.l h5 hk; omega
        obtain ⟨u', eu, hw', hp', hat', -, -⟩ := next_high h (i := lo + 1) (by omega) hw hat
          (hpos_strict h.sorted e.l (by omega)) hz
        rw [eu, Option.bind_some]
        obtain ⟨r, er, hr⟩ := ih (lo + 1) u' (by omega) (by omega) hw' hp' hat'
        refine ⟨r, er, ?_⟩
        rcases hr with ⟨r1, r2⟩ | ⟨lo', it', r1, r2, r3, r4, r5⟩
        · refine Or.inl ⟨r1, fun p q1 q2 => ?_⟩
          rcases Nat.eq_or_lt_of_le q1 with q | q
          · subst q; exact hc
          · exact r2 p q q2
        · refine Or.inr ⟨lo', it', r1, by omega, r3, fun p q1 q2 => ?_, r5⟩
          rcases Nat.eq_or_lt_of_le q1 with q | q
          · subst q; exact hc
          · exact r4 p q q2
    · rw [if_neg hc]
      exact ⟨_, rfl, Or.inr ⟨lo, it, rfl, Nat.le_refl _, hlo, fun p q1 q2 => by omega, by omega, hw, hp, hat⟩⟩

theorem toNat_lowpart (v : Nat) {l : Nat} (hl : l < 64) :
    (BitVec.ofNat 64 v &&& ((1#64 <<< l) - 1#64)).toNat = v % 2 ^ l := by
  obtain ⟨h1, h2⟩ := low_toNat v hl
  apply Nat.eq_of_testBit_eq
  intro j
  rw [Nat.testBit_mod_two_pow]
  by_cases hj : j < l
  · rw [BitVec.testBit_toNat, h2 j hj]; simp [hj]
  · rw [Nat.testBit_lt_two_pow (Nat.lt_of_lt_of_le h1 (Nat.pow_le_pow_right (by omega) (by omega)))]
    simp [hj]

theorem scanLow_spec {e : EF} {vs : List Nat} (h : e.Holds vs) (id : Nat) :
    ∀ (run lo : Nat) (word : W) (avail : Nat), lo + run ≤ vs.length →
      (∀ p, lo ≤ p → p < lo + run → vs.getD p 0 / 2 ^ e.l = id / 2 ^ e.l) →
      (e.l = 0 → word = 0 ∧ vs.length ≤ lo + avail) →
      (∀ j, j < avail * e.l → lo * e.l + j < vs.length * e.l → word.getLsbD j = bitAt e.low.bits (lo * e.l + j)) →
      (e.l ≠ 0 → avail * e.l ≤ 64) →
      ∃ r, scanLow e (BitVec.ofNat 64 id &&& ((1#64 <<< e.l) - 1#64)) run lo word avail = some r ∧
        Spec.SearchResult vs lo (lo + run) id r := by
  intro run
  induction run with
  | zero => intro lo word avail _ _ _ _ _; exact ⟨NF, rfl, Or.inr ⟨rfl, fun p _ _ => by omega⟩⟩
  | succ run ih =>
    intro lo word avail hlen hhi hz hb ha
    have hl := h.l
    obtain ⟨buf, av, er, r1, r2, r3⟩ := refill_spec h (it := ⟨lo, none, word, avail⟩) hz hb ha (by simp only; omega)
    simp only at r1 r2 r3
    unfold scanLow
    rw [er, Option.bind_some]
    simp only
    have hcur : (buf &&& ((1#64 <<< e.l) - 1#64)).toNat = vs.getD lo 0 % 2 ^ e.l := by
      apply Nat.eq_of_testBit_eq
      intro j
      rw [BitVec.testBit_toNat, BitVec.getLsbD_and, Nat.testBit_mod_two_pow,
        show ((1#64 <<< e.l) - 1#64) = maskOf e.l by unfold maskOf; rw [if_neg (by omega)],
        getLsbD_maskOf (by omega)]
      by_cases hj : j < e.l
      · have h1 : (lo + 1) * e.l ≤ vs.length * e.l := Nat.mul_le_mul_right _ (by omega)
        rw [Nat.succ_mul] at h1
        rw [r3 j (by rw [Nat.succ_mul]; omega) (by omega), h.lows _ (by omega) j hj]; simp [hj]
      · simp [hj]
    have hlid := toNat_lowpart id hl
    have hsame := hhi lo (Nat.le_refl _) (by omega)
    have d1 := Nat.div_add_mod (vs.getD lo 0) (2 ^ e.l)
    have d2 := Nat.div_add_mod id (2 ^ e.l)
    by_cases hc : buf &&& ((1#64 <<< e.l) - 1#64) = BitVec.ofNat 64 id &&& ((1#64 <<< e.l) - 1#64)
    · rw [if_pos hc]
      refine ⟨lo, rfl, Or.inl ⟨Nat.le_refl _, by omega, ?_⟩⟩
      have := congrArg BitVec.toNat hc
      rw [hcur, hlid] at this
      rw [hsame] at d1; omega
    · rw [if_neg hc]
      have hne : vs.getD lo 0 ≠ id := by
        intro heq
        apply hc
        apply BitVec.eq_of_toNat_eq
        rw [hcur, hlid, heq]
      by_cases hg : (BitVec.ofNat 64 id &&& ((1#64 <<< e.l) - 1#64)).toNat < (buf &&& ((1#64 <<< e.l) - 1#64)).toNat
      · rw [if_pos hg]
        refine ⟨NF, rfl, Or.inr ⟨rfl, fun p q1 q2 heq => ?_⟩⟩
        rw [hcur, hlid] at hg
        rw [hsame] at d1
        have := sorted_getD h.sorted q1 (by omega : p < vs.length)
        omega
      · rw [if_neg hg]
        obtain ⟨r, e', hr⟩ := ih (lo + 1) (buf >>> e.l) av (by omega) (fun p q1 q2 => hhi p (by omega) (by omega))
          (fun h0 => ⟨by have := (r1 h0).1; rw [this]; simp, (r1 h0).2⟩)
          (by
            intro j hj hlt
            rw [BitVec.getLsbD_ushiftRight, r3 (e.l + j) (by rw [Nat.succ_mul]; omega) (by rw [Nat.succ_mul] at hlt; omega)]
            congr 1; rw [Nat.succ_mul]; omega)
          (fun h0 => by have := r2 h0; rw [Nat.succ_mul] at this; omega)
        refine ⟨r, e', ?_⟩
        rcases hr with ⟨q1, q2, q3⟩ | ⟨q1, q2⟩
        · exact Or.inl ⟨by omega, by omega, q3⟩
        · refine Or.inr ⟨q1, fun p a1 a2 => ?_⟩
          rcases Nat.eq_or_lt_of_le a1 with a | a
          · subst a; exact hne
          · exact q2 p a (by omega)

/-- the block of values with the same high part -/
theorem exists_block (vs : List Nat) (l lo : Nat) : ∀ d, lo + d = vs.length → 0 < d →
    ∃ k, 0 < k ∧ lo + k ≤ vs.length ∧ (∀ p, lo ≤ p → p < lo + k → vs.getD p 0 / 2 ^ l = vs.getD lo 0 / 2 ^ l) ∧
      (lo + k < vs.length → vs.getD (lo + k) 0 / 2 ^ l ≠ vs.getD lo 0 / 2 ^ l) := by
  intro d hd hpos
  have gen : ∀ m k, 0 < k → lo + k + m = vs.length →
      (∀ p, lo ≤ p → p < lo + k → vs.getD p 0 / 2 ^ l = vs.getD lo 0 / 2 ^ l) →
      ∃ k, 0 < k ∧ lo + k ≤ vs.length ∧ (∀ p, lo ≤ p → p < lo + k → vs.getD p 0 / 2 ^ l = vs.getD lo 0 / 2 ^ l) ∧
      (lo + k < vs.length → vs.getD (lo + k) 0 / 2 ^ l ≠ vs.getD lo 0 / 2 ^ l) := by
    intro m
    induction m with
    | zero => intro k hk he hall; exact ⟨k, hk, by omega, hall, fun h => by omega⟩
    | succ m ih =>
      intro k hk he hall
      by_cases hc : vs.getD (lo + k) 0 / 2 ^ l = vs.getD lo 0 / 2 ^ l
      · apply ih (k + 1) (by omega) (by omega)
        intro p q1 q2
        by_cases hp : p = lo + k
        · subst hp; exact hc
        · exact hall p q1 (by omega)
      · exact ⟨k, hk, by omega, hall, fun _ => hc⟩
  apply gen (d - 1) 1 (by omega) (by omega)
  intro p q1 q2
  have : p = lo := by omega
  rw [this]

/-- The optimized scan is exact, started with the value before `lo` as lower bound. -/
theorem scan_spec {e : EF} {vs : List Nat} (h : e.Holds vs) {lo hi id lb : Nat} (hlo : lo < hi) (hhi : hi ≤ vs.length)
    (hlb : lb = if lo = 0 then 0 else vs.getD (lo - 1) 0) :
    ∃ r, e.scan lo hi id lb = some r ∧ Spec.SearchResult vs lo hi id r := by
  have hroom := h.room lo (by omega)
  have hsz := h.highSize
  have hlble : lb ≤ vs.getD lo 0 := by
    rw [hlb]; split
    · omega
    · exact sorted_getD h.sorted (by omega) (by omega)
  have hbeg : lo + lb / 2 ^ e.l ≤ hpos vs e.l lo := by
    have := Nat.div_le_div_right (c := 2 ^ e.l) hlble
    unfold hpos; omega
  obtain ⟨it, eit, hw, hp, hat⟩ := UnaryIter.new_at (ws := e.high.bits) (pos := lo + lb / 2 ^ e.l) (by omega)
  have hz : ∀ p, lo + lb / 2 ^ e.l ≤ p → p < hpos vs e.l lo → bitAt e.high.bits p = false := by
    intro p h1 h3
    apply Bool.eq_false_iff.2; intro hp
    obtain ⟨k, hk, e'⟩ := (h.ones p).1 hp
    rcases Nat.lt_or_ge k lo with h4 | h4
    · rw [hlb, if_neg (by omega)] at h1
      have h5 : hpos vs e.l k ≤ hpos vs e.l (lo - 1) := by
        rcases Nat.eq_or_lt_of_le (show k ≤ lo - 1 by omega) with h6 | h6
        · rw [h6]; exact Nat.le_refl _
        · exact Nat.le_of_lt (hpos_mono h.sorted e.l h6 (by omega))
      unfold hpos at h5 e'; omega
    · rcases Nat.eq_or_lt_of_le h4 with h5 | h5
      · subst h5; omega
      · have := hpos_mono h.sorted e.l h5 hk; omega
  obtain ⟨u', eu, hw', hp', hat', -, -⟩ := next_high h (i := lo) (by omega) hw hat hbeg hz
  have hn : vs.length < e.high.size := by
    have := h.room (vs.length - 1) (by omega)
    unfold hpos at this
    generalize vs.getD (vs.length - 1) 0 / 2 ^ e.l = k at this
    omega
  obtain ⟨r, er, hr⟩ := scanHigh_spec h (highId := id / 2 ^ e.l) hhi (64 * e.high.bits.length + 1) lo u' hlo (by omega)
    hw' hp' hat'
  unfold scan
  rw [eit, Option.bind_some, eu, Option.bind_some]
  simp only
  rw [er, Option.bind_some]
  rcases hr with ⟨r1, r2⟩ | ⟨lo', it', r1, r2, r3, r4, r5, r6, r7, r8⟩
  · subst r1
    refine ⟨NF, rfl, Or.inr ⟨rfl, fun p q1 q2 heq => ?_⟩⟩
    have := r2 p q1 q2
    rw [heq] at this; omega
  · subst r1
    have hsub : hpos vs e.l lo' - lo' = vs.getD lo' 0 / 2 ^ e.l := by unfold hpos; exact Nat.add_sub_cancel _ _
    unfold scanTail
    simp only [hsub]
    by_cases hgt : vs.getD lo' 0 / 2 ^ e.l > id / 2 ^ e.l
    · simp only [if_pos hgt]
      refine ⟨NF, rfl, Or.inr ⟨rfl, fun p q1 q2 heq => ?_⟩⟩
      rcases Nat.lt_or_ge p lo' with hp1 | hp1
      · have := r4 p q1 hp1; rw [heq] at this; omega
      · have := Nat.div_le_div_right (c := 2 ^ e.l) (sorted_getD h.sorted hp1 (by omega))
        rw [heq] at this; omega
    · simp only [if_neg hgt]
      have heq : vs.getD lo' 0 / 2 ^ e.l = id / 2 ^ e.l := by omega
      obtain ⟨k, hk0, hkl, hkall, hkend⟩ := exists_block vs e.l lo' (vs.length - lo') (by omega) (by omega)
      -- the first zero after `v`
      have hq0 : bitAt e.high.bits (hpos vs e.l lo' + k) = false := by
        apply Bool.eq_false_iff.2; intro hp
        obtain ⟨i, hi', e'⟩ := (h.ones _).1 hp
        rcases Nat.lt_or_ge i lo' with h4 | h4
        · have := hpos_mono h.sorted e.l h4 (by omega); omega
        · rcases Nat.lt_or_ge i (lo' + k) with h5 | h5
          · have := hkall i h4 h5
            unfold hpos at e'; omega
          · have hne := hkend (by omega)
            have m1 := Nat.div_le_div_right (c := 2 ^ e.l) (sorted_getD h.sorted (show lo' ≤ lo' + k by omega) (by omega))
            have m2 := Nat.div_le_div_right (c := 2 ^ e.l) (sorted_getD h.sorted h5 hi')
            unfold hpos at e'; omega
      have hones : ∀ i, i < k → bitAt e.high.bits (hpos vs e.l lo' + i) = true := by
        intro i hi'
        rw [h.ones]
        refine ⟨lo' + i, by omega, ?_⟩
        have := hkall (lo' + i) (by omega) (by omega)
        unfold hpos; omega
      have hqlen : hpos vs e.l lo' + k < 64 * e.high.bits.length := by
        have h1 := h.room (lo' + (k - 1)) (by omega)
        have h2 := hkall (lo' + (k - 1)) (by omega) (by omega)
        unfold hpos at h1 ⊢; omega
      obtain ⟨it2, e2, _, hp2, _⟩ := UnaryIter.skip0_after_next (it := it') (q := hpos vs e.l lo' + k) (k := 0)
        (by rw [r7]; exact r8) (by rw [r6]; exact hqlen) (by rw [r6]; exact hq0) (by omega)
        (by
          rw [r6, r7, Nat.add_zero, show hpos vs e.l lo' + k = (hpos vs e.l lo' + 1) + (k - 1) by omega, Spec.rank_add,
            Spec.rank_false (n := k - 1), Nat.add_zero]
          intro i hi'
          have := hones (i + 1) (by omega)
          rw [show hpos vs e.l lo' + 1 + i = hpos vs e.l lo' + (i + 1) by omega, this]; rfl)
      rw [e2, Option.bind_some]
      rw [hp2, show hpos vs e.l lo' + k - hpos vs e.l lo' = k by omega, if_pos (show lo' ≤ hi by omega)]
      obtain ⟨r, e3, h3⟩ := scanLow_spec h id (min k (hi - lo')) lo' 0 (if e.l ≠ 0 then 0 else e.d1.positions)
        (by omega)
        (fun p q1 q2 => by rw [hkall p q1 (by omega), heq])
        (fun h0 => ⟨rfl, by rw [if_neg (by omega), h.positions]; omega⟩)
        (fun j hj => by
          by_cases h0 : e.l = 0
          · rw [h0] at hj; simp at hj
          · rw [if_pos h0] at hj; simp at hj)
        (fun h0 => by rw [if_pos h0]; omega)
      refine ⟨r, e3, ?_⟩
      rcases h3 with ⟨q1, q2, q3⟩ | ⟨q1, q2⟩
      · exact Or.inl ⟨by omega, by omega, q3⟩
      · refine Or.inr ⟨q1, fun p a1 a2 hpe => ?_⟩
        rcases Nat.lt_or_ge p lo' with b1 | b1
        · have := r4 p a1 b1; rw [hpe] at this; omega
        · rcases Nat.lt_or_ge p (lo' + k) with b2 | b2
          · exact q2 p b1 (by omega) hpe
          · have hne := hkend (by omega)
            have m1 := Nat.div_le_div_right (c := 2 ^ e.l) (sorted_getD h.sorted (show lo' ≤ lo' + k by omega) (by omega))
            have m2 := Nat.div_le_div_right (c := 2 ^ e.l) (sorted_getD h.sorted b2 (by omega))
            rw [hpe] at m2; omega

theorem SearchResult_left {vs : List Nat} (hs : Spec.Sorted vs) {lo mid hi x r : Nat} (hm : mid < hi) (hhi : hi ≤ vs.length)
    (hx : x < vs.getD mid 0) (h : Spec.SearchResult vs lo mid x r) : Spec.SearchResult vs lo hi x r := by
  rcases h with ⟨q1, q2, q3⟩ | ⟨q1, q2⟩
  · exact Or.inl ⟨q1, by omega, q3⟩
  · refine Or.inr ⟨q1, fun p a1 a2 => ?_⟩
    rcases Nat.lt_or_ge p mid with h1 | h1
    · exact q2 p a1 h1
    · have := sorted_getD hs h1 (by omega); omega

theorem SearchResult_right {vs : List Nat} (hs : Spec.Sorted vs) {lo mid hi x r : Nat} (hlm : lo ≤ mid) (hm : mid < hi)
    (hhi : hi ≤ vs.length) (hx : vs.getD mid 0 < x) (h : Spec.SearchResult vs (mid + 1) hi x r) :
    Spec.SearchResult vs lo hi x r := by
  rcases h with ⟨q1, q2, q3⟩ | ⟨q1, q2⟩
  · exact Or.inl ⟨by omega, by omega, q3⟩
  · refine Or.inr ⟨q1, fun p a1 a2 => ?_⟩
    rcases Nat.lt_or_ge p (mid + 1) with h1 | h1
    · have := sorted_getD hs (show p ≤ mid by omega) (by omega); omega
    · exact q2 p h1 a2

theorem bsearchScan_spec {e : EF} {vs : List Nat} (h : e.Holds vs) {id : Nat} : ∀ (d lo hi lb : Nat), hi - lo ≤ d → lo < hi →
    hi ≤ vs.length → lb = (if lo = 0 then 0 else vs.getD (lo - 1) 0) →
    ∃ r, e.bsearchScan lo hi id lb = some r ∧ Spec.SearchResult vs lo hi id r := by
  intro d
  induction d with
  | zero => intro lo hi lb h1 h2; omega
  | succ d ih =>
    intro lo hi lb hd hlo hhi hlb
    unfold bsearchScan
    by_cases hc : hi - lo > 64
    · rw [dif_pos hc]
      have hm1 : lo < (lo + hi) / 2 := by omega
      have hm2 : (lo + hi) / 2 + 1 < hi := by omega
      rw [h.get (by omega), Option.bind_some]
      by_cases he : id = vs.getD ((lo + hi) / 2) 0
      · rw [if_pos he]; exact ⟨_, rfl, Or.inl ⟨by omega, by omega, he.symm⟩⟩
      · rw [if_neg he]
        by_cases hlt : id < vs.getD ((lo + hi) / 2) 0
        · rw [if_pos hlt]
          obtain ⟨r, er, hr⟩ := ih lo ((lo + hi) / 2) lb (by omega) hm1 (by omega) hlb
          exact ⟨r, er, SearchResult_left h.sorted (by omega) hhi hlt hr⟩
        · rw [if_neg hlt]
          obtain ⟨r, er, hr⟩ := ih ((lo + hi) / 2 + 1) hi (vs.getD ((lo + hi) / 2) 0) (by omega) hm2 hhi
            (by rw [if_neg (by omega)]; rfl)
          exact ⟨r, er, SearchResult_right h.sorted (by omega) (by omega) hhi (by omega) hr⟩
    · rw [dif_neg hc]
      exact scan_spec h hlo hhi hlb

end EF

/-! ## Proofs: grouping -/

/-- Specification of a well-formed pointer sequence over `n` grams: starts at 0, never decreases, ends at `n`. -/
structure Spec.Pointers (ptrs : List Nat) (n : Nat) : Prop where
  first : ptrs[0]? = some 0
  sorted : ptrs.Pairwise (· ≤ ·)
  last : ptrs.getLast? = some n

/-- Specification: the value preceding position `b` (0 if there is none). -/
def Spec.before (vals : List Nat) (b : Nat) : Nat := if b = 0 then 0 else vals.getD (b - 1) 0

/-- Specification: `vals` are the absolute values of the grams: within the range starting at `b` each gram is
offset by the value that precedes the range. -/
structure Spec.Grouped (grams ptrs vals : List Nat) : Prop where
  length : vals.length = grams.length
  val : ∀ j b e, ptrs[j]? = some b → ptrs[j + 1]? = some e → ∀ i, b ≤ i → i < e →
    vals.getD i 0 = grams.getD i 0 + Spec.before vals b

namespace FastEF

theorem advance_spec {ptrs : List Nat} {n : Nat} (hp : Spec.Pointers ptrs n) : ∀ (rest : List Nat) (j e : Nat),
    ptrs.drop j = e :: rest → e < n →
    ∃ j' p rest', advance rest e = some (p - e, p, rest') ∧ ptrs.drop j' = e :: p :: rest' ∧ e < p := by
  intro rest
  induction rest with
  | nil =>
    intro j e hd hlt
    exfalso
    have h1 : (ptrs.drop j).getLast? = some e := by rw [hd]; rfl
    have h2 := hp.last
    have hj : j < ptrs.length := by
      apply Nat.lt_of_not_le; intro h; rw [List.drop_eq_nil_of_le h] at hd; cases hd
    rw [List.getLast?_drop, if_neg (by omega), h2] at h1
    cases h1; omega
  | cons p ps ih =>
    intro j e hd hlt
    have hle : e ≤ p := by
      have := List.Pairwise.sublist (List.drop_sublist j ptrs) hp.sorted
      rw [hd] at this
      exact (List.pairwise_cons.1 this).1 p (by simp)
    unfold advance
    by_cases hc : p - e ≠ 0
    · rw [if_pos hc]
      exact ⟨j, p, ps, rfl, hd, by omega⟩
    · rw [if_neg hc]
      have : p = e := by omega
      subst this
      have hd' : ptrs.drop (j + 1) = p :: ps := by
        rw [← List.drop_drop, hd]; rfl
      exact ih (j + 1) p hd' hlt

theorem drop_get {α : Type} {l : List α} {j : Nat} {a b : α} {t : List α} (h : l.drop j = a :: b :: t) :
    l[j]? = some a ∧ l[j + 1]? = some b := by
  have h0 := congrArg (fun x => x[0]?) h
  have h1 := congrArg (fun x => x[1]?) h
  simp only [List.getElem?_drop] at h0 h1
  exact ⟨by simpa using h0, by simpa using h1⟩

theorem take_succ_getD (vals : List Nat) {i : Nat} (hi : i < vals.length) :
    vals.take i ++ [vals.getD i 0] = vals.take (i + 1) := by
  rw [List.take_add_one, List.getElem?_eq_getElem hi, List.getD_eq_getElem?_getD, List.getElem?_eq_getElem hi]; rfl

theorem getLast_take (vals : List Nat) {i : Nat} (hi : i ≤ vals.length) :
    (vals.take i).getLast?.getD 0 = Spec.before vals i := by
  unfold Spec.before
  by_cases h0 : i = 0
  · subst h0; simp
  · rw [if_neg h0, List.getLast?_take, if_neg h0, List.getElem?_eq_getElem (show i - 1 < vals.length by omega),
      List.getD_eq_getElem?_getD, List.getElem?_eq_getElem (show i - 1 < vals.length by omega)]
    rfl

theorem groupLoop_spec {grams ptrs vals : List Nat} (hp : Spec.Pointers ptrs grams.length)
    (hg : Spec.Grouped grams ptrs vals) (hb : ∀ v ∈ vals, v < 2 ^ 64) :
    ∀ (gs : List Nat) (i j s e : Nat) (rest : List Nat), gs = grams.drop i → ptrs.drop j = s :: e :: rest →
      s ≤ i → i ≤ e → groupLoop gs rest e (e - s) (i - s) (Spec.before vals s) (vals.take i) = some vals := by
  intro gs
  induction gs with
  | nil =>
    intro i j s e rest hgs _ _ _
    have : grams.length ≤ i := by
      have := congrArg List.length hgs; simp at this; omega
    unfold groupLoop
    rw [List.take_of_length_le (by rw [hg.length]; exact this)]
  | cons g gs ih =>
    intro i j s e rest hgs hd hsi hie
    have hi : i < grams.length := by
      have := congrArg List.length hgs; simp at this; omega
    have hiv : i < vals.length := by rw [hg.length]; exact hi
    have hgi : grams.getD i 0 = g := by
      have := congrArg (fun l => l[0]?) hgs
      simp only [List.getElem?_drop] at this
      rw [List.getD_eq_getElem?_getD, ← show (i + 0 = i) from rfl, ← this]; rfl
    have hgs' : gs = grams.drop (i + 1) := by
      rw [Nat.add_comm, Nat.add_comm 1 i, ← List.drop_drop, ← hgs]; rfl
    unfold groupLoop
    by_cases hc : i - s = e - s
    · rw [if_pos hc]
      have hie' : i = e := by omega
      subst hie'
      have hd' : ptrs.drop (j + 1) = i :: rest := by rw [← List.drop_drop, hd]; rfl
      obtain ⟨j', p, rest', ea, hdj, hlt⟩ := advance_spec hp rest (j + 1) i hd' hi
      rw [ea, Option.bind_some]
      simp only
      rw [getLast_take vals (by omega)]
      have hv := hg.val j' i p (drop_get hdj).1 (drop_get hdj).2 i (Nat.le_refl _) hlt
      rw [hgi] at hv
      rw [← hv, Nat.mod_eq_of_lt (hb _ (EF.getD_mem hiv)), take_succ_getD vals hiv]
      have := ih (i + 1) j' i p rest' hgs' hdj (by omega) (by omega)
      rwa [show i + 1 - i = 1 by omega] at this
    · rw [if_neg hc]
      have hv := hg.val j s e (drop_get hd).1 (drop_get hd).2 i hsi (by omega)
      rw [hgi] at hv
      rw [← hv, Nat.mod_eq_of_lt (hb _ (EF.getD_mem hiv)), take_succ_getD vals hiv]
      have := ih (i + 1) j s e rest hgs' hd (by omega) (by omega)
      rwa [show i + 1 - s = i - s + 1 by omega] at this

theorem groupVals_spec {grams ptrs vals : List Nat} (hne : grams ≠ []) (hp : Spec.Pointers ptrs grams.length)
    (hg : Spec.Grouped grams ptrs vals) (hb : ∀ v ∈ vals, v < 2 ^ 64) : groupVals grams ptrs = some vals := by
  match ptrs, hp, hg with
  | [], hp, _ => have := hp.first; simp at this
  | [s], hp, _ =>
    exfalso
    have h1 := hp.first; have h2 := hp.last
    simp at h1 h2
    exact hne (List.length_eq_zero_iff.1 (by omega))
  | s :: e :: rest, hp, hg =>
    have h1 := hp.first
    simp only [List.getElem?_cons_zero, Option.some.injEq] at h1
    subst h1
    unfold groupVals
    exact groupLoop_spec hp hg hb grams 0 0 0 e rest rfl rfl (Nat.le_refl _) (Nat.zero_le _)

theorem sorted_of_adjacent {vs : List Nat} (h : ∀ i, i + 1 < vs.length → vs.getD i 0 ≤ vs.getD (i + 1) 0) : Spec.Sorted vs := by
  have gen : ∀ d i, i + d < vs.length → vs.getD i 0 ≤ vs.getD (i + d) 0 := by
    intro d
    induction d with
    | zero => intro i _; exact Nat.le_refl _
    | succ d ih => intro i hi; exact Nat.le_trans (ih i (by omega)) (h (i + d) hi)
  unfold Spec.Sorted
  rw [List.pairwise_iff_getElem]
  intro i j hi hj hij
  have := gen (j - i) i (by omega)
  rw [show i + (j - i) = j by omega] at this
  rw [List.getD_eq_getElem?_getD, List.getElem?_eq_getElem hi, List.getD_eq_getElem?_getD, List.getElem?_eq_getElem hj] at this
  exact this

/-- every position lies in a range -/
theorem exists_range {ptrs : List Nat} {n : Nat} (hp : Spec.Pointers ptrs n) {i : Nat} (hi : i < n) :
    ∃ j b e, ptrs[j]? = some b ∧ ptrs[j + 1]? = some e ∧ b ≤ i ∧ i < e := by
  have gen : ∀ d j b, ptrs[j]? = some b → b ≤ i → ptrs.length = j + d →
      ∃ j b e, ptrs[j]? = some b ∧ ptrs[j + 1]? = some e ∧ b ≤ i ∧ i < e := by
    intro d
    induction d with
    | zero => intro j b h1 _ h3; rw [List.getElem?_eq_none (by omega)] at h1; cases h1
    | succ d ih =>
      intro j b h1 h2 h3
      by_cases hd : d = 0
      · subst hd
        have h4 := hp.last
        rw [List.getLast?_eq_getElem?, h3, show j + (0 + 1) - 1 = j by omega, h1] at h4
        cases h4; omega
      · have hj : j + 1 < ptrs.length := by omega
        by_cases hc : i < ptrs[j + 1]
        · exact ⟨j, b, _, h1, List.getElem?_eq_getElem hj, h2, hc⟩
        · exact ih (j + 1) _ (List.getElem?_eq_getElem hj) (by omega) (by omega)
  exact gen ptrs.length 0 0 hp.first (Nat.zero_le _) (by omega)

/-- Specification: within every range the grams do not decrease. -/
def _root_.Tongrams.Spec.RangeSorted (grams ptrs : List Nat) : Prop :=
  ∀ j b e, ptrs[j]? = some b → ptrs[j + 1]? = some e → ∀ i, b ≤ i → i + 1 < e → grams.getD i 0 ≤ grams.getD (i + 1) 0

theorem grouped_sorted {grams ptrs vals : List Nat} (hp : Spec.Pointers ptrs grams.length)
    (hg : Spec.Grouped grams ptrs vals) (hr : Spec.RangeSorted grams ptrs) : Spec.Sorted vals := by
  apply sorted_of_adjacent
  intro i hi
  rw [hg.length] at hi
  obtain ⟨j, b, e, h1, h2, h3, h4⟩ := exists_range hp hi
  have hv := hg.val j b e h1 h2 (i + 1) h3 h4
  rcases Nat.eq_or_lt_of_le h3 with h5 | h5
  · subst h5
    rw [hv]; unfold Spec.before; rw [if_neg (by omega)]; simp only [Nat.add_sub_cancel]; omega
  · have hv' := hg.val j b e h1 h2 i (by omega) (by omega)
    rw [hv, hv']
    have := hr j b e h1 h2 i (by omega) h4
    omega

/-! ## Proofs: samplings -/

/-- The range of the node with (1-based, breadth first) index `i` of the binary search tree over `[lo, hi)`. -/
def node (lo hi : Nat) (i : Nat) : Nat × Nat :=
  if h : i ≤ 1 then (lo, hi)
  else
    let r := node lo hi (i / 2)
    if i % 2 = 0 then (r.1, (r.1 + r.2) / 2) else ((r.1 + r.2) / 2 + 1, r.2)
termination_by i
decreasing_by omega

theorem node_left (lo hi : Nat) {i : Nat} (hi' : 1 ≤ i) :
    node lo hi (2 * i) = ((node lo hi i).1, ((node lo hi i).1 + (node lo hi i).2) / 2) := by
  rw [node, dif_neg (by omega), show 2 * i / 2 = i by omega]
  simp only [show 2 * i % 2 = 0 by omega, if_true]

theorem node_right (lo hi : Nat) {i : Nat} (hi' : 1 ≤ i) :
    node lo hi (2 * i + 1) = (((node lo hi i).1 + (node lo hi i).2) / 2 + 1, (node lo hi i).2) := by
  rw [node, dif_neg (by omega), show (2 * i + 1) / 2 = i by omega]
  rw [if_neg (show ¬ (2 * i + 1) % 2 = 0 by omega)]

theorem node_one (lo hi : Nat) : node lo hi 1 = (lo, hi) := by rw [node, dif_pos (by omega)]

/-- Ranges of nodes at depth `d` of a tree of bounded height stay inside and long. -/
theorem node_bounds {lo hi H : Nat} (hlo : lo ≤ hi) (hH : 2 ^ (H + 1) ≤ hi - lo) : ∀ (d i : Nat), d ≤ H → 2 ^ d ≤ i → i < 2 ^ (d + 1) →
    lo ≤ (node lo hi i).1 ∧ (node lo hi i).2 ≤ hi ∧ (node lo hi i).1 < (node lo hi i).2 ∧
      hi - lo + 2 ≤ ((node lo hi i).2 - (node lo hi i).1 + 2) * 2 ^ d := by
  intro d
  induction d with
  | zero =>
    intro i hd h1 h2
    have : i = 1 := by simp at h1 h2; omega
    subst this
    rw [node_one]
    have := Nat.two_pow_pos (H + 1)
    simp only [Nat.pow_zero, Nat.mul_one]
    omega
  | succ d ih =>
    intro i hd h1 h2
    rw [Nat.pow_succ] at h1 h2
    have hpow : 2 ^ d ≥ 1 := Nat.two_pow_pos d
    obtain ⟨q1, q2, q3, q4⟩ := ih (i / 2) (by omega) (by omega) (by rw [Nat.pow_succ] at h2 ⊢; omega)
    have hlen : ∀ L : Nat, hi - lo + 2 ≤ (L + 2) * 2 ^ (d + 1) → 1 ≤ L := by
      intro L hL
      apply Nat.pos_of_ne_zero; intro h0; subst h0
      have h3 : 2 ^ (d + 1) ≤ 2 ^ H := Nat.pow_le_pow_right (by omega) hd
      rw [Nat.pow_succ] at hH
      omega
    have key : ∀ L L' : Nat, L ≤ 2 * L' + 2 → hi - lo + 2 ≤ (L + 2) * 2 ^ d → hi - lo + 2 ≤ (L' + 2) * 2 ^ (d + 1) := by
      intro L L' hL hq
      refine Nat.le_trans hq ?_
      rw [Nat.pow_succ, ← Nat.mul_assoc, Nat.mul_right_comm]
      apply Nat.mul_le_mul_right
      omega
    generalize hn : node lo hi (i / 2) = r at *
    rcases Nat.mod_two_eq_zero_or_one i with hm | hm
    · have hi2 : i = 2 * (i / 2) := by omega
      rw [hi2, node_left lo hi (by omega), hn]
      simp only
      have hk := key (r.2 - r.1) ((r.1 + r.2) / 2 - r.1) (by omega) q4
      have hL := hlen _ hk
      exact ⟨q1, by omega, by omega, hk⟩
    · have hi2 : i = 2 * (i / 2) + 1 := by omega
      rw [hi2, node_right lo hi (by omega), hn]
      simp only
      have hk := key (r.2 - r.1) (r.2 - ((r.1 + r.2) / 2 + 1)) (by omega) q4
      have hL := hlen _ hk
      exact ⟨by omega, q2, by omega, hk⟩

/-- The sample of node `i`. -/
def sampleOf (vals : List Nat) (lo hi i : Nat) : Nat := vals.getD (((node lo hi i).1 + (node lo hi i).2) / 2) 0

theorem fillLevel_spec {vals : List Nat} {lo hi : Nat} : ∀ (m k : Nat) (s : List Nat), 1 ≤ k →
    (∀ i, k ≤ i → i < k + m → ((node lo hi i).1 + (node lo hi i).2) / 2 < vals.length) →
    fillLevel vals m ((List.range' k k).map (node lo hi)) s =
      some ((List.range' (k + m) (k + m)).map (node lo hi), s ++ (List.range' k m).map (sampleOf vals lo hi)) := by
  intro m
  induction m with
  | zero => intro k s _ _; simp [fillLevel]
  | succ m ih =>
    intro k s hk hb
    have hq : (List.range' k k).map (node lo hi) = node lo hi k :: (List.range' (k + 1) (k - 1)).map (node lo hi) := by
      obtain ⟨k', rfl⟩ : ∃ k', k = k' + 1 := ⟨k - 1, by omega⟩
      rw [List.range'_succ]; rfl
    have hmid := hb k (Nat.le_refl _) (by omega)
    rw [hq, fillLevel, List.getElem?_eq_getElem hmid, Option.bind_some]
    have hs : vals[((node lo hi k).1 + (node lo hi k).2) / 2] = sampleOf vals lo hi k := by
      unfold sampleOf; rw [List.getD_eq_getElem?_getD, List.getElem?_eq_getElem hmid]; rfl
    rw [hs]
    have hq2 : (List.range' (k + 1) (k - 1)).map (node lo hi) ++
        [((node lo hi k).1, ((node lo hi k).1 + (node lo hi k).2) / 2),
          (((node lo hi k).1 + (node lo hi k).2) / 2 + 1, (node lo hi k).2)] =
        (List.range' (k + 1) (k + 1)).map (node lo hi) := by
      rw [← node_left lo hi hk, ← node_right lo hi hk]
      have : List.range' (k + 1) (k + 1) = List.range' (k + 1) (k - 1) ++ [2 * k, 2 * k + 1] := by
        rw [show k + 1 = (k - 1) + 2 by omega, ← List.range'_append, Nat.one_mul]
        congr 1
        simp [List.range'_succ]; omega
      rw [this]; simp
    rw [hq2, ih (k + 1) _ (by omega) (fun i h1 h2 => hb i (by omega) (by omega))]
    rw [show k + 1 + m = k + (m + 1) by omega, List.range'_succ]
    simp

theorem fillLevels_spec {vals : List Nat} {lo hi : Nat} : ∀ (r h : Nat) (s : List Nat),
    (∀ i, 2 ^ h ≤ i → i < 2 ^ (h + r) → ((node lo hi i).1 + (node lo hi i).2) / 2 < vals.length) →
    fillLevels vals r h ((List.range' (2 ^ h) (2 ^ h)).map (node lo hi)) s =
      some (s ++ (List.range' (2 ^ h) (2 ^ (h + r) - 2 ^ h)).map (sampleOf vals lo hi)) := by
  intro r
  induction r with
  | zero => intro h s _; simp [fillLevels]
  | succ r ih =>
    intro h s hb
    have h1 : 1 ≤ 2 ^ h := Nat.two_pow_pos h
    have h2 : 2 ^ (h + 1) = 2 ^ h + 2 ^ h := by rw [Nat.pow_succ]; omega
    have h3 : 2 ^ (h + 1) ≤ 2 ^ (h + (r + 1)) := Nat.pow_le_pow_right (by omega) (by omega)
    unfold fillLevels
    rw [fillLevel_spec (2 ^ h) (2 ^ h) s h1 (fun i a b => hb i a (by omega)), Option.bind_some]
    simp only
    rw [← h2, ih (h + 1) _ (by
      intro i a b
      rw [show h + 1 + r = h + (r + 1) by omega] at b
      exact hb i (by omega) b)]
    rw [List.append_assoc, ← List.map_append]
    congr 3
    rw [show 2 ^ (h + (r + 1)) - 2 ^ h = 2 ^ h + (2 ^ (h + 1 + r) - 2 ^ (h + 1)) by
      rw [show h + 1 + r = h + (r + 1) by omega]; omega, ← List.range'_append, Nat.one_mul, h2]

/-- The samples of a range: the value preceding it, then its tree. -/
def Block (vals samp : List Nat) (b e base : Nat) : Prop :=
  samp[base]? = some (Spec.before vals b) ∧
    ∀ i, 1 ≤ i → i < 2 ^ treeHeight (e - b) → samp[base + i]? = some (sampleOf vals b e i)

theorem Block.append {vals samp : List Nat} {b e base : Nat} (h : Block vals samp b e base) (s : List Nat) :
    Block vals (samp ++ s) b e base := by
  have gen : ∀ {i : Nat} {v : Nat}, samp[i]? = some v → (samp ++ s)[i]? = some v := by
    intro i v hv
    have hi : i < samp.length := by
      apply Nat.lt_of_not_le; intro hl; rw [List.getElem?_eq_none hl] at hv; cases hv
    rw [List.getElem?_append_left hi]; exact hv
  exact ⟨gen h.1, fun i h1 h2 => gen (h.2 i h1 h2)⟩

theorem treeHeight_bound {run : Nat} (h1 : 128 ≤ run) (h2 : run < 2 ^ 64) : 2 ^ (treeHeight run + 1) ≤ run := by
  have hs := ceilLog2_spec (BitVec.ofNat 64 run)
  rw [BitVec.toNat_ofNat, Nat.mod_eq_of_lt h2] at hs
  unfold treeHeight
  generalize ceilLog2 (BitVec.ofNat 64 run) = k at *
  obtain ⟨a, b, -⟩ := hs
  have b := b (by omega)
  by_cases hk : 8 ≤ k
  · have : 2 ^ (k - 7 + 1) ≤ 2 ^ (k - 1) := Nat.pow_le_pow_right (by omega) (by omega)
    omega
  · rw [show k - 7 = 0 by omega]; omega

theorem fillSamplings_spec {vals : List Nat} {b e : Nat} (s : List Nat) (hbe : 128 ≤ e - b) (he : e ≤ vals.length)
    (hn : vals.length < 2 ^ 64) :
    fillSamplings b e (treeHeight (e - b)) vals s =
      some (s ++ (List.range' 1 (2 ^ treeHeight (e - b) - 1)).map (sampleOf vals b e)) := by
  have hH := treeHeight_bound hbe (by omega)
  have := fillLevels_spec (vals := vals) (lo := b) (hi := e) (treeHeight (e - b)) 0 s (by
    intro i h1 h2
    rw [Nat.zero_add] at h2
    have hi0 : i ≠ 0 := by simp at h1; omega
    have hlog : Nat.log2 i < treeHeight (e - b) := (Nat.log2_lt hi0).2 h2
    obtain ⟨q1, q2, q3, q4⟩ := node_bounds (lo := b) (hi := e) (by omega) hH (Nat.log2 i) i (by omega)
      (Nat.log2_self_le hi0) Nat.lt_log2_self
    omega)
  rw [Nat.zero_add, Nat.pow_zero] at this
  unfold fillSamplings
  rw [← this]
  congr 1
  simp [node_one]

theorem sampleLoop_spec {vals : List Nat} (hn : vals.length < 2 ^ 64) : ∀ (ps : List Nat) (b : Nat) (F T S : List Nat),
    (b :: ps).Pairwise (· ≤ ·) → (∀ p ∈ b :: ps, p ≤ vals.length) → T.Pairwise (· ≤ ·) → (∀ t ∈ T, t ≤ S.length) →
    S.length ≤ b →
    ∃ T' S', sampleLoop vals ps b F T S = some (F ++ longBegins (b :: ps), T ++ T', S ++ S') ∧
      T'.length = (longBegins (b :: ps)).length ∧ (T ++ T').Pairwise (· ≤ ·) ∧ (∀ t ∈ T ++ T', t ≤ vals.length) ∧
      ∀ j b' e', (b :: ps)[j]? = some b' → (b :: ps)[j + 1]? = some e' → 128 ≤ e' - b' →
        ∃ k base : Nat, (longBegins (b :: ps))[k]? = some b' ∧ T'[k]? = some base ∧ Block vals (S ++ S') b' e' base := by
  intro ps
  induction ps with
  | nil =>
    intro b F T S _ hl hT hTS hS
    refine ⟨[], [], by simp [sampleLoop, longBegins], rfl, by simpa using hT, ?_, ?_⟩
    · intro t ht
      have := hl b (by simp)
      rw [List.append_nil] at ht
      have := hTS t ht; omega
    · intro j b' e' h1 h2 _
      simp at h2
  | cons e ps ih =>
    intro b F T S hs hl hT hTS hS
    have hbe : b ≤ e := (List.pairwise_cons.1 hs).1 e (by simp)
    have hs' := (List.pairwise_cons.1 hs).2
    have hl' : ∀ p ∈ e :: ps, p ≤ vals.length := fun p hp => hl p (List.mem_cons_of_mem _ hp)
    have hen := hl e (by simp)
    unfold sampleLoop
    by_cases hc : e - b ≥ 128
    · rw [if_pos hc]
      have hpu : (if b ≠ 0 then vals[b - 1]? else some 0) = some (Spec.before vals b) := by
        unfold Spec.before
        by_cases h0 : b = 0
        · subst h0; simp
        · rw [if_pos h0, if_neg h0, List.getD_eq_getElem?_getD, List.getElem?_eq_getElem (show b - 1 < vals.length by omega)]
          rfl
      rw [hpu, Option.bind_some, fillSamplings_spec _ hc hen hn, Option.bind_some]
      have hH := treeHeight_bound hc (by omega)
      have hp1 : 1 ≤ 2 ^ treeHeight (e - b) := Nat.two_pow_pos _
      rw [Nat.pow_succ] at hH
      generalize hblk : [Spec.before vals b] ++ (List.range' 1 (2 ^ treeHeight (e - b) - 1)).map (sampleOf vals b e) = blk
      have hblen : blk.length = 2 ^ treeHeight (e - b) := by rw [← hblk]; simp; omega
      rw [List.append_assoc, hblk]
      obtain ⟨T', S', e1, e2, e3, e4, e5⟩ := ih e (F ++ [b]) (T ++ [S.length]) (S ++ blk) hs' hl'
        (by
          rw [List.pairwise_append]
          refine ⟨hT, List.pairwise_singleton _ _, ?_⟩
          intro a ha c hcm
          rw [List.mem_singleton] at hcm; subst hcm
          exact hTS a ha)
        (by
          intro t ht
          rw [List.length_append]
          rcases List.mem_append.1 ht with h | h
          · have := hTS t h; omega
          · rw [List.mem_singleton] at h; omega)
        (by rw [List.length_append, hblen]; omega)
      have hlb : longBegins (b :: e :: ps) = b :: longBegins (e :: ps) := by rw [longBegins, if_pos hc]
      refine ⟨S.length :: T', blk ++ S', ?_, ?_, ?_, ?_, ?_⟩
      · rw [e1, hlb]; simp
      · rw [hlb]; simp [e2]
      · simpa using e3
      · simpa using e4
      · intro j b' e' h1 h2 h3
        cases j with
        | zero =>
          simp only [List.getElem?_cons_zero, Option.some.injEq, Nat.zero_add, List.getElem?_cons_succ] at h1 h2
          subst h1; subst h2
          refine ⟨0, S.length, by rw [hlb]; rfl, rfl, ?_⟩
          rw [← List.append_assoc]
          apply Block.append
          refine ⟨?_, ?_⟩
          · rw [List.getElem?_append_right (Nat.le_refl _), Nat.sub_self, ← hblk]; rfl
          · intro i i1 i2
            rw [List.getElem?_append_right (by omega), ← hblk, List.getElem?_append_right (by simp; omega),
              List.getElem?_map, List.getElem?_range' (by simp; omega)]
            simp only [Option.map_some, List.length_singleton]
            congr 2; omega
        | succ j =>
          simp only [List.getElem?_cons_succ] at h1 h2
          obtain ⟨k, base, k1, k2, k3⟩ := e5 j b' e' h1 h2 h3
          refine ⟨k + 1, base, by rw [hlb]; exact k1, k2, ?_⟩
          rw [← List.append_assoc]; exact k3
    · rw [if_neg hc]
      obtain ⟨T', S', e1, e2, e3, e4, e5⟩ := ih e F T S hs' hl' hT hTS (by omega)
      have hlb : longBegins (b :: e :: ps) = longBegins (e :: ps) := by rw [longBegins, if_neg hc]
      refine ⟨T', S', by rw [hlb]; exact e1, by rw [hlb]; exact e2, e3, e4, ?_⟩
      intro j b' e' h1 h2 h3
      cases j with
      | zero =>
        simp only [List.getElem?_cons_zero, Option.some.injEq, Nat.zero_add, List.getElem?_cons_succ] at h1 h2
        subst h1; subst h2; omega
      | succ j =>
        simp only [List.getElem?_cons_succ] at h1 h2
        rw [hlb]
        exact e5 j b' e' h1 h2 h3

/-- What a successfully built `fast_ef_sequence` holds. -/
structure Holds (f : FastEF) (vals ptrs : List Nat) : Prop where
  ef : f.ef.Holds vals
  blocks : ∀ j b e, ptrs[j]? = some b → ptrs[j + 1]? = some e → 128 ≤ e - b →
    ∃ t base, f.offsets = some t ∧ t.lookup b = some base ∧ Block vals f.samplings b e base.toNat

theorem buildVals_spec {h : Mphf Nat 64} {vals ptrs : List Nat} (hne : vals ≠ []) (hp : Spec.Pointers ptrs vals.length)
    (hs : Spec.Sorted vals) (hb : ∀ v ∈ vals, v < 2 ^ 64) (hn : vals.length < 2 ^ 64 - 1)
    (hh : longBegins ptrs ≠ [] → h.BuiltFrom (longBegins ptrs)) :
    ∃ f, buildVals h vals ptrs = some (.ok f) ∧ f.Holds vals ptrs ∧ f.ef.size = vals.length := by
  obtain ⟨p, ps, rfl⟩ : ∃ p ps, ptrs = p :: ps := by
    cases ptrs with
    | nil => have := hp.first; simp at this
    | cons p ps => exact ⟨p, ps, rfl⟩
  have hall : ∀ q ∈ p :: ps, q ≤ vals.length := by
    have h1 := hp.sorted; have h2 := hp.last
    intro q hq
    obtain ⟨i, hi, rfl⟩ := List.getElem_of_mem hq
    rw [List.getLast?_eq_getElem?] at h2
    have hlt : (p :: ps).length - 1 < (p :: ps).length := by simp
    rw [List.getElem?_eq_getElem hlt, Option.some.injEq] at h2
    rcases Nat.eq_or_lt_of_le (show i ≤ (p :: ps).length - 1 by omega) with h3 | h3
    · subst h3; omega
    · have := List.pairwise_iff_getElem.1 h1 i _ hi hlt h3; omega
  obtain ⟨T, S, e1, e2, e3, e4, e5⟩ := sampleLoop_spec (show vals.length < 2 ^ 64 by omega) ps p [] [] [] hp.sorted hall List.Pairwise.nil
    (by simp) (by simp)
  simp only [List.nil_append] at e1 e3 e4 e5
  have hu : ∀ v ∈ vals, v ≤ vals.getLast hne := by
    intro v hv
    obtain ⟨i, hi, rfl⟩ := List.getElem_of_mem hv
    rw [List.getLast_eq_getElem]
    rcases Nat.eq_or_lt_of_le (show i ≤ vals.length - 1 by omega) with h3 | h3
    · subst h3; exact Nat.le_refl _
    · exact List.pairwise_iff_getElem.1 hs i _ hi (by omega) h3
  obtain ⟨ef, e6, e7, -⟩ := EF.build_ok hs hu (hb _ (List.getLast_mem hne))
  unfold buildVals
  simp only
  rw [e1, Option.bind_some]
  simp only
  by_cases hl : (longBegins (p :: ps)) = []
  · rw [hl]
    simp only [List.length_nil, ne_eq, not_true_eq_false, if_false, Option.bind_some]
    rw [List.getLast?_eq_some_getLast hne, Option.bind_some, e6, Option.map_some]
    refine ⟨_, rfl, ⟨e7, ?_⟩, e7.size⟩
    intro j b e h1 h2 h3
    obtain ⟨k, base, k1, _⟩ := e5 j b e h1 h2 h3
    rw [hl] at k1; simp at k1
  · have hlen : (longBegins (p :: ps)).length ≠ 0 := by
      intro h0; exact hl (List.length_eq_zero_iff.1 h0)
    rw [if_pos hlen]
    have htn : ∀ t ∈ T, (BitVec.ofNat 64 t : W).toNat = t := by
      intro t ht
      have := e4 t ht
      rw [BitVec.toNat_ofNat, Nat.mod_eq_of_lt (by omega)]
    obtain ⟨t, et, hlook⟩ := C23_uint_table (hh hl) hl (vs := T.map (BitVec.ofNat 64)) (by simp [e2])
      (by
        have hTne : T ≠ [] := by intro h0; rw [h0] at e2; simp at e2; omega
        intro v hv
        obtain ⟨x, hx, rfl⟩ := List.mem_map.1 hv
        rw [List.getLast?_map, List.getLast?_eq_some_getLast hTne]
        simp only [Option.map_some, Option.getD_some]
        rw [htn x hx, htn _ (List.getLast_mem hTne)]
        obtain ⟨i, hi, rfl⟩ := List.getElem_of_mem hx
        rw [List.getLast_eq_getElem]
        rcases Nat.eq_or_lt_of_le (show i ≤ T.length - 1 by omega) with h3 | h3
        · subst h3; exact Nat.le_refl _
        · exact List.pairwise_iff_getElem.1 e3 i _ hi (by omega) h3)
      (by
        intro v hv
        obtain ⟨x, hx, rfl⟩ := List.mem_map.1 hv
        rw [htn x hx]
        have := e4 x hx; omega)
    rw [et, Option.map_some, Option.bind_some, List.getLast?_eq_some_getLast hne, Option.bind_some, e6, Option.map_some]
    refine ⟨_, rfl, ⟨e7, ?_⟩, e7.size⟩
    intro j b e h1 h2 h3
    obtain ⟨k, base, k1, k2, k3⟩ := e5 j b e h1 h2 h3
    have hk : k < (longBegins (p :: ps)).length := by
      apply Nat.lt_of_not_le; intro hx; rw [List.getElem?_eq_none hx] at k1; cases k1
    have := hlook k hk
    rw [List.getElem?_eq_getElem hk, Option.some.injEq] at k1
    rw [k1] at this
    have hkT : k < T.length := by omega
    rw [List.getElem?_eq_getElem hkT, Option.some.injEq] at k2
    refine ⟨t, _, rfl, this, ?_⟩
    rw [List.getElem_map, k2, htn base (by rw [← k2]; exact List.getElem_mem hkT)]
    exact k3

theorem treeSearch_spec {f : FastEF} {vals : List Nat} (hf : f.ef.Holds vals) {b e base id : Nat}
    (he : e ≤ vals.length) (hbe : 128 ≤ e - b) (hn : vals.length < 2 ^ 64)
    (hbl : Block vals f.samplings b e base) : ∀ (r d i lb : Nat), d + r = treeHeight (e - b) → 2 ^ d ≤ i → i < 2 ^ (d + 1) →
      lb = Spec.before vals (node b e i).1 →
      ∃ x, treeSearch f base id r i (node b e i).1 (node b e i).2 lb = some x ∧
        Spec.SearchResult vals (node b e i).1 (node b e i).2 id x := by
  have hH := treeHeight_bound hbe (by omega)
  intro r
  induction r with
  | zero =>
    intro d i lb hd h1 h2 hlb
    obtain ⟨q1, q2, q3, -⟩ := node_bounds (lo := b) (hi := e) (by omega) hH d i (by omega) h1 h2
    unfold treeSearch
    exact EF.bsearchScan_spec hf _ _ _ _ (Nat.le_refl _) q3 (by omega) hlb
  | succ r ih =>
    intro d i lb hd h1 h2 hlb
    have hi1 : 1 ≤ i := Nat.le_trans (Nat.two_pow_pos d) h1
    obtain ⟨q1, q2, q3, -⟩ := node_bounds (lo := b) (hi := e) (by omega) hH d i (by omega) h1 h2
    have hiH : i < 2 ^ treeHeight (e - b) :=
      Nat.lt_of_lt_of_le h2 (Nat.pow_le_pow_right (by omega) (by omega))
    unfold treeSearch
    rw [hbl.2 i hi1 hiH, Option.bind_some]
    have hso : sampleOf vals b e i = vals.getD (((node b e i).1 + (node b e i).2) / 2) 0 := rfl
    by_cases c1 : id = sampleOf vals b e i
    · rw [if_pos c1]
      exact ⟨_, rfl, Or.inl ⟨by omega, by omega, by rw [c1, hso]⟩⟩
    · rw [if_neg c1]
      by_cases c2 : id < sampleOf vals b e i
      · rw [if_pos c2]
        obtain ⟨x, ex, hx⟩ := ih (d + 1) (2 * i) lb (by omega) (by rw [Nat.pow_succ]; omega)
          (by rw [Nat.pow_succ]; omega) (by rw [node_left b e hi1]; exact hlb)
        rw [node_left b e hi1] at ex hx
        exact ⟨x, ex, EF.SearchResult_left hf.sorted (by omega) (by omega) (by rw [← hso]; exact c2) hx⟩
      · rw [if_neg c2]
        obtain ⟨x, ex, hx⟩ := ih (d + 1) (2 * i + 1) (sampleOf vals b e i) (by omega) (by rw [Nat.pow_succ]; omega)
          (by rw [Nat.pow_succ]; omega)
          (by rw [node_right b e hi1]; unfold Spec.before; rw [if_neg (by simp)]; rfl)
        rw [node_right b e hi1] at ex hx
        refine ⟨x, ex, EF.SearchResult_right hf.sorted (by omega) (by omega) (by omega) (by rw [← hso]; omega) hx⟩

theorem find_spec {f : FastEF} {vals ptrs : List Nat} (hf : f.Holds vals ptrs) (hn : vals.length < 2 ^ 64) {j b e : Nat}
    (h1 : ptrs[j]? = some b) (h2 : ptrs[j + 1]? = some e) (hbe : b < e) (he : e ≤ vals.length) (id : Nat) :
    ∃ x, f.find b e id = some x ∧ Spec.SearchResult vals b e ((id + Spec.before vals b) % 2 ^ 64) x := by
  unfold find
  by_cases hc : e - b ≥ 128
  · rw [if_pos hc]
    obtain ⟨t, base, k1, k2, k3⟩ := hf.blocks j b e h1 h2 hc
    rw [k1, Option.bind_some, k2, Option.bind_some, k3.1, Option.bind_some]
    have := treeSearch_spec hf.ef he hc hn k3 (id := (id + Spec.before vals b) % 2 ^ 64) (treeHeight (e - b)) 0 1
      (Spec.before vals b) (by omega) (by simp) (by simp) (by rw [node_one])
    rw [node_one] at this
    exact this
  · rw [if_neg hc]
    have hpu : (if b ≠ 0 then f.ef.get (b - 1) else some 0) = some (Spec.before vals b) := by
      unfold Spec.before
      by_cases h0 : b = 0
      · subst h0; simp
      · rw [if_pos h0, if_neg h0, hf.ef.get (by omega)]
    rw [hpu, Option.bind_some]
    exact EF.bsearchScan_spec hf.ef _ _ _ _ (Nat.le_refl _) hbe he rfl

end FastEF

/-- Specification: the absolute values of the grams, range after range: every gram of a range plus the last
absolute value of the ranges before it. -/
def Spec.absVals (grams : List Nat) : List Nat → List Nat → List Nat
  | b :: e :: ps, acc =>
    Spec.absVals grams (e :: ps) (acc ++ ((grams.drop b).take (e - b)).map (· + acc.getLast?.getD 0))
  | _, acc => acc

namespace FastEF

theorem absVals_spec (grams : List Nat) : ∀ (ps : List Nat) (b : Nat) (acc : List Nat), acc.length = b →
    (b :: ps).Pairwise (· ≤ ·) → (∀ p ∈ b :: ps, p ≤ grams.length) →
    ∃ X, Spec.absVals grams (b :: ps) acc = acc ++ X ∧ (acc ++ X).length = (b :: ps).getLast (by simp) ∧
      ∀ j b' e', (b :: ps)[j]? = some b' → (b :: ps)[j + 1]? = some e' → ∀ i, b' ≤ i → i < e' →
        (acc ++ X).getD i 0 = grams.getD i 0 + Spec.before (acc ++ X) b' := by
  intro ps
  induction ps with
  | nil =>
    intro b acc hb _ _
    exact ⟨[], by simp [Spec.absVals], by simpa using hb, by intro j b' e' h1 h2; simp at h2⟩
  | cons e ps ih =>
    intro b acc hb hs hl
    have hbe : b ≤ e := (List.pairwise_cons.1 hs).1 e (by simp)
    have he : e ≤ grams.length := hl e (by simp)
    rw [Spec.absVals]
    generalize hY : ((grams.drop b).take (e - b)).map (· + acc.getLast?.getD 0) = Y
    have hYl : Y.length = e - b := by rw [← hY]; simp; omega
    obtain ⟨X, e1, e2, e3⟩ := ih e (acc ++ Y) (by rw [List.length_append, hYl]; omega) (List.pairwise_cons.1 hs).2
      (fun p hp => hl p (List.mem_cons_of_mem _ hp))
    refine ⟨Y ++ X, by rw [e1, List.append_assoc], ?_, ?_⟩
    · rw [← List.append_assoc, e2]; exact (List.getLast_cons (by simp)).symm
    · intro j b' e' h1 h2 i i1 i2
      rw [← List.append_assoc]
      cases j with
      | succ j =>
        simp only [List.getElem?_cons_succ] at h1 h2
        exact e3 j b' e' h1 h2 i i1 i2
      | zero =>
        simp only [List.getElem?_cons_zero, Option.some.injEq, Nat.zero_add, List.getElem?_cons_succ] at h1 h2
        subst h1; subst h2
        have hbef : Spec.before (acc ++ Y ++ X) b = acc.getLast?.getD 0 := by
          unfold Spec.before
          by_cases h0 : b = 0
          · rw [if_pos h0]
            have : acc = [] := List.length_eq_zero_iff.1 (by omega)
            rw [this]; rfl
          · rw [if_neg h0, List.append_assoc, List.getD_eq_getElem?_getD, List.getElem?_append_left (by omega),
              List.getLast?_eq_getElem?, hb]
        rw [hbef, List.getD_eq_getElem?_getD, List.getElem?_append_left (by rw [List.length_append]; omega),
          List.getElem?_append_right (by omega), ← hY, List.getElem?_map, List.getElem?_take_of_lt (by omega),
          List.getElem?_drop, hb, show b + (i - b) = i by omega, List.getD_eq_getElem?_getD,
          List.getElem?_eq_getElem (show i < grams.length by omega)]
        rfl

theorem absVals_grouped {grams ptrs : List Nat} (hp : Spec.Pointers ptrs grams.length) :
    Spec.Grouped grams ptrs (Spec.absVals grams ptrs []) := by
  obtain ⟨ps, rfl⟩ : ∃ ps, ptrs = 0 :: ps := by
    cases ptrs with
    | nil => have := hp.first; simp at this
    | cons p ps => have := hp.first; simp at this; subst this; exact ⟨ps, rfl⟩
  have hlast := hp.last
  rw [List.getLast?_eq_some_getLast (by simp), Option.some.injEq] at hlast
  have hall : ∀ q ∈ 0 :: ps, q ≤ grams.length := by
    intro q hq
    rw [← hlast]
    obtain ⟨i, hi, rfl⟩ := List.getElem_of_mem hq
    rw [List.getLast_eq_getElem]
    rcases Nat.eq_or_lt_of_le (show i ≤ (0 :: ps).length - 1 by omega) with h3 | h3
    · subst h3; exact Nat.le_refl _
    · exact List.pairwise_iff_getElem.1 hp.sorted i _ hi (by omega) h3
  obtain ⟨X, e1, e2, e3⟩ := absVals_spec grams ps 0 [] rfl hp.sorted hall
  rw [e1]
  exact ⟨by rw [e2, hlast], e3⟩

theorem build_spec {h : Mphf Nat 64} {grams ptrs : List Nat} (hne : grams ≠ []) (hp : Spec.Pointers ptrs grams.length)
    (hr : Spec.RangeSorted grams ptrs) (hb : ∀ v ∈ Spec.absVals grams ptrs [], v < 2 ^ 64) (hn : grams.length < 2 ^ 64 - 1)
    (hh : longBegins ptrs ≠ [] → h.BuiltFrom (longBegins ptrs)) :
    ∃ f, build h grams ptrs = some (.ok f) ∧ f.Holds (Spec.absVals grams ptrs []) ptrs ∧ f.ef.size = grams.length := by
  have hg := absVals_grouped hp
  unfold build
  rw [groupVals_spec hne hp hg hb, Option.bind_some]
  rw [← hg.length] at hp hn ⊢
  refine buildVals_spec ?_ hp (grouped_sorted (by rw [← hg.length]; exact hp) hg hr) hb hn hh
  intro h0
  have := hg.length
  rw [h0] at this
  exact hne (List.length_eq_zero_iff.1 this.symm)

end FastEF

open FastEF in
/-- C13: a `fast_ef_sequence` built over non-empty grams that do not decrease within each range, whose absolute
values fit in 64 bits, returns by `operator[]` the absolute value of every position; subtracting the value
preceding the range gives back the gram.  `h` is whatever hash function the constructor built over the
beginnings of the ranges of 128 or more grams. -/
theorem C13_fast_ef_sequence_is_input {h : Mphf Nat 64} {grams ptrs : List Nat} (hne : grams ≠ [])
    (hp : Spec.Pointers ptrs grams.length) (hr : Spec.RangeSorted grams ptrs)
    (hb : ∀ v ∈ Spec.absVals grams ptrs [], v < 2 ^ 64) (hn : grams.length < 2 ^ 64 - 1)
    (hh : longBegins ptrs ≠ [] → h.BuiltFrom (longBegins ptrs)) :
    ∃ f, build h grams ptrs = some (.ok f) ∧ f.ef.size = grams.length ∧
      (∀ i, i < grams.length → f.get i = some ((Spec.absVals grams ptrs []).getD i 0)) ∧
      (∀ j b e, ptrs[j]? = some b → ptrs[j + 1]? = some e → ∀ i, b ≤ i → i < e →
        ∃ v u, f.get i = some v ∧ (if b = 0 then some 0 else f.get (b - 1)) = some u ∧ v = grams.getD i 0 + u) := by
  obtain ⟨f, e1, e2, e3⟩ := build_spec hne hp hr hb hn hh
  have hg := absVals_grouped hp
  have hget : ∀ i, i < grams.length → f.get i = some ((Spec.absVals grams ptrs []).getD i 0) :=
    fun i hi => e2.ef.get (by rw [hg.length]; exact hi)
  refine ⟨f, e1, e3, hget, ?_⟩
  intro j b e h1 h2 i i1 i2
  have hen : e ≤ grams.length := by
    have hl := hp.last
    rw [List.getLast?_eq_getElem?] at hl
    have hj : j + 1 < ptrs.length := by
      apply Nat.lt_of_not_le; intro hx; rw [List.getElem?_eq_none hx] at h2; cases h2
    rw [List.getElem?_eq_getElem hj, Option.some.injEq] at h2
    rw [List.getElem?_eq_getElem (by omega), Option.some.injEq] at hl
    rcases Nat.eq_or_lt_of_le (show j + 1 ≤ ptrs.length - 1 by omega) with h3 | h3
    · rw [← h2, ← hl]; simp only [h3]; exact Nat.le_refl _
    · have := List.pairwise_iff_getElem.1 hp.sorted _ _ hj (by omega) h3; omega
  refine ⟨_, Spec.before (Spec.absVals grams ptrs []) b, hget i (by omega), ?_, hg.val j b e h1 h2 i i1 i2⟩
  unfold Spec.before
  by_cases h0 : b = 0
  · rw [if_pos h0, if_pos h0]
  · rw [if_neg h0, if_neg h0, hget _ (by omega)]

open FastEF in
/-- C14: on the sequence built as in C13, `find` over any non-empty range (the `j`-th one) and any 64-bit id
returns a position of the range that holds the id, or not-found if no position of the range holds it. -/
theorem C14_find_exact {h : Mphf Nat 64} {grams ptrs : List Nat} (hne : grams ≠ [])
    (hp : Spec.Pointers ptrs grams.length) (hr : Spec.RangeSorted grams ptrs)
    (hb : ∀ v ∈ Spec.absVals grams ptrs [], v < 2 ^ 64) (hn : grams.length < 2 ^ 64 - 1)
    (hh : longBegins ptrs ≠ [] → h.BuiltFrom (longBegins ptrs)) :
    ∃ f, build h grams ptrs = some (.ok f) ∧
      ∀ j b e, ptrs[j]? = some b → ptrs[j + 1]? = some e → b < e → ∀ id, id < 2 ^ 64 →
        ∃ pos, f.find b e id = some pos ∧ Spec.SearchResult grams b e id pos := by
  obtain ⟨f, e1, e2, e3⟩ := build_spec hne hp hr hb hn hh
  have hg := absVals_grouped hp
  refine ⟨f, e1, ?_⟩
  intro j b e h1 h2 hbe id hid
  have hen : e ≤ grams.length := by
    have hl := hp.last
    rw [List.getLast?_eq_getElem?] at hl
    have hj : j + 1 < ptrs.length := by
      apply Nat.lt_of_not_le; intro hx; rw [List.getElem?_eq_none hx] at h2; cases h2
    rw [List.getElem?_eq_getElem hj, Option.some.injEq] at h2
    rw [List.getElem?_eq_getElem (by omega), Option.some.injEq] at hl
    rcases Nat.eq_or_lt_of_le (show j + 1 ≤ ptrs.length - 1 by omega) with h3 | h3
    · rw [← h2, ← hl]; simp only [h3]; exact Nat.le_refl _
    · have := List.pairwise_iff_getElem.1 hp.sorted _ _ hj (by omega) h3; omega
  obtain ⟨x, ex, hx⟩ := find_spec e2 (by rw [hg.length]; omega) h1 h2 hbe (by rw [hg.length]; exact hen) id
  refine ⟨x, ex, ?_⟩
  have hval := hg.val j b e h1 h2
  have hmem : ∀ i, i < grams.length → (Spec.absVals grams ptrs []).getD i 0 < 2 ^ 64 :=
    fun i hi => hb _ (EF.getD_mem (by rw [hg.length]; exact hi))
  have hbef : Spec.before (Spec.absVals grams ptrs []) b < 2 ^ 64 := by
    unfold Spec.before
    by_cases h0 : b = 0
    · rw [if_pos h0]; omega
    · rw [if_neg h0]; exact hmem _ (by omega)
  have key : ∀ p, b ≤ p → p < e →
      ((Spec.absVals grams ptrs []).getD p 0 = (id + Spec.before (Spec.absVals grams ptrs []) b) % 2 ^ 64 ↔
        grams.getD p 0 = id) := by
    intro p p1 p2
    have hv := hval p p1 p2
    have hm := hmem p (by omega)
    rw [hv] at hm ⊢
    constructor
    · intro heq
      rcases Nat.lt_or_ge (id + Spec.before (Spec.absVals grams ptrs []) b) (2 ^ 64) with hlt | hge
      · rw [Nat.mod_eq_of_lt hlt] at heq; omega
      · rw [Nat.mod_eq_sub_mod hge, Nat.mod_eq_of_lt (by omega)] at heq; omega
    · intro heq
      subst heq
      rw [Nat.mod_eq_of_lt hm]
  rcases hx with ⟨q1, q2, q3⟩ | ⟨q1, q2⟩
  · exact Or.inl ⟨q1, q2, (key x q1 q2).1 q3⟩
  · exact Or.inr ⟨q1, fun p p1 p2 hpe => q2 p p1 p2 ((key p p1 p2).2 hpe)⟩

/-- Non-vacuity of C13/C14 with short ranges only (one of them empty): the hypotheses hold with any `h`. -/
example : Spec.Pointers [0, 3, 3, 5] 5 ∧ Spec.RangeSorted [2, 5, 9, 0, 4] [0, 3, 3, 5] ∧
    (∀ v ∈ Spec.absVals [2, 5, 9, 0, 4] [0, 3, 3, 5] [], v < 2 ^ 64) ∧
    Spec.absVals [2, 5, 9, 0, 4] [0, 3, 3, 5] [] = [2, 5, 9, 9, 13] ∧ FastEF.longBegins [0, 3, 3, 5] = [] := by
  refine ⟨⟨rfl, by decide, rfl⟩, ?_, by decide, by decide, by decide⟩
  intro j b e h1 h2 i i1 i2
  have hj : j < 3 := by
    apply Nat.lt_of_not_le; intro hx; rw [List.getElem?_eq_none (by simp; omega)] at h2; cases h2
  have : j = 0 ∨ j = 1 ∨ j = 2 := by omega
  rcases this with rfl | rfl | rfl <;> simp at h1 h2 <;> subst h1 <;> subst h2
  · have : i = 0 ∨ i = 1 := by omega
    rcases this with rfl | rfl <;> decide
  · omega
  · have : i = 3 := by omega
    subst this; decide

namespace FastEF

/-- A hash function over the single key 0. -/
def exMphf : Mphf Nat 64 := { n := 1, domain := 1, hasher := fun _ => (0, 0, 0), bv := [3, 0, 0] }

theorem exMphf_built : exMphf.BuiltFrom [0] := by
  refine ⟨[(0, 1, 2)], [⟨0, 1, 2⟩], by decide, by decide, ⟨⟨_, List.Perm.refl _, ?_⟩, by decide⟩, ?_⟩
  · unfold Mphf.Orients
    exact List.Forall₂.cons (by decide) List.Forall₂.nil
  · have h : Mphf.assign [⟨0, 1, 2⟩] (List.replicate 3 0) = some [3, 0, 0] := by decide
    unfold Mphf.build
    simp only [exMphf, h]
    rfl

end FastEF

/-- Non-vacuity of C13/C14 with a range of 150 grams (the samples and the hash table are used). -/
example : Spec.Pointers [0, 150] 150 ∧ Spec.RangeSorted (List.range 150) [0, 150] ∧
    (∀ v ∈ Spec.absVals (List.range 150) [0, 150] [], v < 2 ^ 64) ∧
    FastEF.exMphf.BuiltFrom (FastEF.longBegins [0, 150]) ∧ FastEF.treeHeight 150 = 1 := by
  refine ⟨⟨rfl, by decide, rfl⟩, ?_, by decide +kernel, FastEF.exMphf_built, by decide +kernel⟩
  intro j b e h1 h2 i i1 i2
  have hj : j < 1 := by
    apply Nat.lt_of_not_le; intro hx; rw [List.getElem?_eq_none (by simp; omega)] at h2; cases h2
  have : j = 0 := by omega
  subst this
  simp at h1 h2; subst h1; subst h2
  rw [List.getD_eq_getElem?_getD, List.getD_eq_getElem?_getD, List.getElem?_range (by omega), List.getElem?_range (by omega)]
  simp

/-- C14, defect: on an empty range (here the children of a node without children, `[3, 3)`) `find` runs into the
next ranges and returns a position outside the range. -/
theorem C14_empty_range_false_positive_defect :
    ((FastEF.build FastEF.exMphf [2, 5, 9, 0, 4] [0, 3, 3, 5]).bind fun
      | .ok f => f.find 3 3 4
      | .error () => none) = some 4 := by decide +kernel

/-- C14, defect: on an empty range at the end of the sequence `find` scans beyond the end of the bits. -/
theorem C14_empty_range_out_of_bounds_defect :
    ((FastEF.build FastEF.exMphf [2, 5, 9, 0, 4] [0, 3, 5, 5]).bind fun
      | .ok f => some (f.find 5 5 4)
      | .error () => none) = some none := by decide +kernel

/-- C13, defect: if exactly two ranges have 128 grams or more, the constructor of the hash table over their
beginnings tries for ever: no hash function comes out. -/
theorem C13_two_long_ranges_never_build_defect {ptrs : List Nat} (h2 : (FastEF.longBegins ptrs).length = 2)
    (h : Mphf Nat 64) : ¬ h.BuiltFrom (FastEF.longBegins ptrs) := by
  intro hb
  match hl : FastEF.longBegins ptrs, h2 with
  | [a, b], _ =>
    rw [hl] at hb
    obtain ⟨edges, order, hd, he, hp, -⟩ := hb
    rw [hd] at he
    exact C22_two_keys_never_build_defect a b h.hasher he order hp

/-- Two ranges of 128 grams: a pointer sequence the defect applies to. -/
example : (FastEF.longBegins [0, 128, 130, 300]).length = 2 := by decide

end Tongrams
