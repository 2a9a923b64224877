import Mathlib.Algebra.Order.Field.Basic
import Mathlib.Data.Rat.Defs
import Mathlib.Algebra.Order.Ring.Rat
import Mathlib.Tactic.Linarith
import Mathlib.Tactic.Ring
import Mathlib.Tactic.Common
import Mathlib.Data.List.Sort
import Verif.Trie
import Verif.Floats

/-!
# Quantised values (sequence_collections.hpp:12-180)

Floating-point numbers are any type with the operations and laws of `FloatArith` (Floats.lean): `Binary32`, where every operation
rounds, or exact numbers.  `std::sort` is any function that returns a sorted permutation.
-/

set_option linter.unusedSectionVars false

namespace Tongrams

namespace Quant
variable {F : Type} [FloatArith F]

/-- The mean of a bin: `std::accumulate(start, finish, 0.0) / float(finish - start)` (sequence_collections.hpp:67-68). -/
def mean (l : List F) : F := FloatArith.accMean (l.foldl FloatArith.accAdd FloatArith.accZero) l.length

/-- The loop of `make_bins` (sequence_collections.hpp:54-71): the bins `i .. num_bins`, given the position `start` of the
first.  `negInf` stands for minus infinity, which is stored if the first bin is empty. -/
def makeBins (negInf : F) (s : List F) (numBins : Nat) : Nat → Nat → Nat → List F → Option (List F)
  | 0, _, _, avgs => some avgs
  | k + 1, i, start, avgs =>
    let finish := s.length * (i + 1) / numBins
    if finish = start then
      (if i ≠ 0 then avgs.getLast? else some negInf).bind fun a => makeBins negInf s numBins k (i + 1) finish (avgs ++ [a])
    else makeBins negInf s numBins k (i + 1) finish (avgs ++ [mean ((s.drop start).take (finish - start))])

/-- `check_quantization_bits` (sequence_collections.hpp:73-86): exception or abort. -/
def bitsOK (bits n : Nat) : Bool := decide (2 ≤ bits ∧ bits ≤ 32 ∧ (n = 0 ∨ 2 ^ bits ≤ n))

/-- `build_probs_sequence` (sequence_collections.hpp:102-113). -/
def buildProbs (sort : List F → List F) (negInf : F) (vals : List F) (bits : Nat) : Res (List F) :=
  if bitsOK bits vals.length then
    Res.lift (makeBins negInf (sort vals) (2 ^ bits) (2 ^ bits) 0 0 [])
  else some (.error ())

/-- `build_backoffs_sequence` (sequence_collections.hpp:88-100): entry 0 is reserved for the value 0. -/
def buildBackoffs (sort : List F → List F) (negInf : F) (vals : List F) (bits : Nat) : Res (List F) :=
  if bitsOK bits vals.length then
    Res.lift (makeBins negInf (sort vals) (2 ^ bits - 1) (2 ^ bits - 1) 0 0 [0])
  else some (.error ())

/-- `std::lower_bound(data.begin() + reserved, data.end(), value)`, as a position: the first element not below. -/
def lowerBound (data : List F) (reserved : Nat) (v : F) : Nat :=
  reserved + (data.drop reserved).findIdx fun x => !decide (x < v)

/-- `rank` (sequence_collections.hpp:31-51) in the codebook `data`. -/
def rank (data : List F) (reserved : Nat) (v : F) : Option Nat :=
  if reserved = 1 ∧ v = 0 then some 0 else
  let above := lowerBound data reserved v
  if above = reserved then some reserved else
  if above = data.length then some (data.length - 1) else
  (data[above - 1]?).bind fun p => (data[above]?).map fun a => if v - p < a - v then above - 1 else above

/-- `access` (sequence_collections.hpp:143-147). -/
def access (data : List F) (i : Nat) : Option F := data[i]?

end Quant

/-! ## Proofs -/

namespace Quant
variable {F : Type} [FloatArith F]

theorem mean_bounds {l : List F} (hne : l ≠ []) (hok : FloatArith.BinOK F l.length) {lo hi : F} (h1 : ∀ x ∈ l, lo ≤ x) (h2 : ∀ x ∈ l, x ≤ hi) :
    lo ≤ mean l ∧ mean l ≤ hi := FloatArith.mean_bounds l lo hi hne hok h1 h2

theorem div_step_le (n k i : Nat) (hk : 0 < k) : n * (i + 1) / k - n * i / k ≤ n / k + 1 := by
  have h1 : n * (i + 1) / k < n * i / k + n / k + 2 := by
    rw [Nat.div_lt_iff_lt_mul hk]
    have e1 := Nat.div_add_mod (n * i) k
    have e2 := Nat.div_add_mod n k
    have m1 := Nat.mod_lt (n * i) hk
    have m2 := Nat.mod_lt n hk
    have : (n * i / k + n / k + 2) * k = k * (n * i / k) + k * (n / k) + 2 * k := by ring
    have : n * (i + 1) = n * i + n := by ring
    omega
  generalize n * (i + 1) / k = a at *
  generalize n * i / k = b at *
  generalize n / k = c at *
  omega

theorem div_step {n k i : Nat} (hk : 0 < k) (hn : k ≤ n) : n * i / k < n * (i + 1) / k := by
  have : n * (i + 1) = n * i + n := by ring
  rw [this]
  calc n * i / k < n * i / k + 1 := by omega
    _ = (n * i + k) / k := by rw [Nat.add_div_right _ hk]
    _ ≤ (n * i + n) / k := Nat.div_le_div_right (by omega)

theorem exists_least {l : List F} (hne : l ≠ []) (h : l.Pairwise (· ≤ ·)) : ∃ b ∈ l, ∀ x ∈ l, b ≤ x := by
  cases l with
  | nil => exact absurd rfl hne
  | cons y ys =>
    refine ⟨y, List.mem_cons_self, ?_⟩
    intro x hx
    rcases List.mem_cons.1 hx with rfl | hx
    · exact le_refl _
    · exact (List.pairwise_cons.1 h).1 x hx

/-- The bins of a sorted sequence at least as long as the number of bins. -/
theorem makeBins_spec (negInf : F) {s : List F} (hs : s.Pairwise (· ≤ ·)) {m : Nat} (hm : 0 < m) (hn : m ≤ s.length)
    (hok : FloatArith.BinOK F (s.length / m + 1)) (k i : Nat) (hki : i + k = m) (pre avgs : List F) (hl : avgs.length = i)
    (hsort : avgs.Pairwise (· ≤ ·)) (hin : ∀ a ∈ avgs, (∃ x ∈ s, x ≤ a) ∧ ∃ x ∈ s, a ≤ x)
    (hbelow : ∀ a ∈ avgs, ∀ x ∈ s.drop (s.length * i / m), a ≤ x) :
    ∃ r, makeBins negInf s m k i (s.length * i / m) (pre ++ avgs) = some (pre ++ r) ∧ r.length = m ∧ r.Pairwise (· ≤ ·) ∧
      ∀ a ∈ r, (∃ x ∈ s, x ≤ a) ∧ ∃ x ∈ s, a ≤ x := by
  induction k generalizing i avgs with
  | zero => exact ⟨avgs, rfl, by omega, hsort, hin⟩
  | succ k ih =>
    have hlt := div_step (i := i) hm hn
    have hfin : s.length * (i + 1) / m ≤ s.length := by
      apply Nat.div_le_of_le_mul
      rw [Nat.mul_comm m]
      exact Nat.mul_le_mul_left _ (by omega)
    rw [makeBins]
    rw [if_neg (by omega), List.append_assoc]
    set st := s.length * i / m with hst
    set fi := s.length * (i + 1) / m with hfi
    have hbne : (s.drop st).take (fi - st) ≠ [] := by
      intro e
      have := congrArg List.length e
      rw [List.length_take, List.length_drop, List.length_nil] at this
      omega
    have hmemb : ∀ x ∈ (s.drop st).take (fi - st), x ∈ s.drop st := fun x hx => List.mem_of_mem_take hx
    have hsplit : s.drop st = (s.drop st).take (fi - st) ++ s.drop fi := by
      conv_lhs => rw [← List.take_append_drop (fi - st) (s.drop st)]
      rw [List.drop_drop]
      congr 2; omega
    have hpw : (s.drop st).Pairwise (· ≤ ·) := hs.sublist (List.drop_sublist _ _)
    rw [hsplit, List.pairwise_append] at hpw
    obtain ⟨b, hb⟩ := List.exists_mem_of_ne_nil _ hbne
    -- the least and the greatest element of the bin
    obtain ⟨bl, hbl, hbl'⟩ : ∃ bl ∈ (s.drop st).take (fi - st), ∀ x ∈ (s.drop st).take (fi - st), bl ≤ x := by
      exact exists_least hbne hpw.1
    obtain ⟨bu, hbu, hbu'⟩ : ∃ bu ∈ (s.drop st).take (fi - st), ∀ x ∈ (s.drop st).take (fi - st), x ≤ bu := by
      refine ⟨_, List.getLast_mem hbne, ?_⟩
      intro x hx
      have hp := hpw.1
      rw [← List.dropLast_concat_getLast hbne] at hx
      rw [← List.dropLast_concat_getLast hbne, List.pairwise_append] at hp
      rcases List.mem_append.1 hx with hx | hx
      · exact hp.2.2 x hx _ (by simp)
      · rw [List.mem_singleton.1 hx]
    have hmean := mean_bounds hbne (FloatArith.binOK_mono _ _ (by
      rw [List.length_take, List.length_drop]
      have := div_step_le s.length m i hm
      omega) hok) hbl' hbu'
    refine ih (i + 1) (by omega) (avgs ++ [mean ((s.drop st).take (fi - st))]) (by rw [List.length_append, hl]; rfl) ?_ ?_ ?_
    · rw [List.pairwise_append]
      refine ⟨hsort, by simp, ?_⟩
      intro a ha c hc
      rw [List.mem_singleton.1 hc]
      exact le_trans (hbelow a ha bl (hmemb _ hbl)) hmean.1
    · intro a ha
      rcases List.mem_append.1 ha with ha | ha
      · exact hin a ha
      · rw [List.mem_singleton.1 ha]
        exact ⟨⟨bl, List.mem_of_mem_drop (hmemb _ hbl), hmean.1⟩, ⟨bu, List.mem_of_mem_drop (hmemb _ hbu), hmean.2⟩⟩
    · intro a ha x hx
      rcases List.mem_append.1 ha with ha | ha
      · exact hbelow a ha x (by rw [hsplit]; exact List.mem_append_right _ hx)
      · rw [List.mem_singleton.1 ha]
        exact le_trans hmean.2 (hpw.2.2 bu hbu x hx)

theorem lowerBound_spec {data : List F} {res : Nat} (hr : res < data.length) (hs : (data.drop res).Pairwise (· ≤ ·)) (v : F) :
    res ≤ lowerBound data res v ∧ lowerBound data res v ≤ data.length ∧
    (∀ j x, res ≤ j → j < lowerBound data res v → data[j]? = some x → x < v) ∧
    (∀ j x, lowerBound data res v ≤ j → data[j]? = some x → v ≤ x) := by
  unfold lowerBound
  have hle := List.findIdx_le_length (p := fun x => !decide (x < v)) (xs := data.drop res)
  rw [List.length_drop] at hle
  refine ⟨by omega, by omega, ?_, ?_⟩
  · intro j x h1 h2 hx
    have hj : j - res < (data.drop res).findIdx fun x => !decide (x < v) := by omega
    have := List.not_of_lt_findIdx hj
    rw [List.getElem_drop] at this
    have hx' := (List.getElem?_eq_some_iff.1 hx).2
    simp only [show res + (j - res) = j by omega, hx'] at this
    simpa using this
  · intro j x h1 hx
    obtain ⟨hj, rfl⟩ := List.getElem?_eq_some_iff.1 hx
    generalize hf : (data.drop res).findIdx (fun x => !decide (x < v)) = f at h1 hle
    have hfl : f < (data.drop res).length := by rw [List.length_drop]; omega
    have hp : (fun x => !decide (x < v)) (data.drop res)[f] = true := by
      have := List.findIdx_getElem (xs := data.drop res) (p := fun x => !decide (x < v)) (w := by rw [hf]; exact hfl)
      simpa only [hf] using this
    have hv : v ≤ (data.drop res)[f] := by simpa using hp
    rcases Nat.eq_or_lt_of_le h1 with he | hlt
    · rw [List.getElem_drop] at hv
      simp only [← he]; exact hv
    · have := List.pairwise_iff_getElem.1 hs f (j - res) hfl (by rw [List.length_drop]; omega) (by omega)
      rw [List.getElem_drop, List.getElem_drop] at this
      rw [List.getElem_drop] at hv
      simp only [show res + (j - res) = j by omega] at this
      exact le_trans hv this


theorem sorted_le {data : List F} {res : Nat} (hs : (data.drop res).Pairwise (· ≤ ·)) {i j : Nat} {x y : F} (hi : res ≤ i) (hij : i ≤ j)
    (hx : data[i]? = some x) (hy : data[j]? = some y) : x ≤ y := by
  rcases Nat.eq_or_lt_of_le hij with rfl | hlt
  · rw [hx] at hy; cases hy; exact le_refl _
  · obtain ⟨h1, rfl⟩ := List.getElem?_eq_some_iff.1 hx
    obtain ⟨h2, rfl⟩ := List.getElem?_eq_some_iff.1 hy
    have := List.pairwise_iff_getElem.1 hs (i - res) (j - res) (by rw [List.length_drop]; omega) (by rw [List.length_drop]; omega) (by omega)
    rw [List.getElem_drop, List.getElem_drop] at this
    simpa only [show res + (i - res) = i by omega, show res + (j - res) = j by omega] using this

theorem dist_below {v x y : F} (h1 : y ≤ x) (h2 : x ≤ v) : Spec.dist v x ≤ Spec.dist v y := by
  unfold Spec.dist
  rw [if_pos h2, if_pos (le_trans h1 h2)]
  exact FloatArith.sub_le_right _ _ _ h1

theorem dist_above {v x y : F} (h1 : v ≤ x) (h2 : x ≤ y) : Spec.dist v x ≤ Spec.dist v y := by
  unfold Spec.dist
  by_cases hx : x ≤ v
  · have e : x = v := le_antisymm hx h1
    subst e
    rw [if_pos (le_refl _)]
    split
    · rw [le_antisymm (by assumption) h2]
    · exact FloatArith.sub_le_left _ _ _ h2
  · rw [if_neg hx, if_neg (fun h => hx (le_trans h2 h))]
    exact FloatArith.sub_le_left _ _ _ h2

theorem dist_left {v x : F} (h : x ≤ v) : Spec.dist v x = v - x := by unfold Spec.dist; rw [if_pos h]

theorem dist_right {v x : F} (h : v ≤ x) : Spec.dist v x = x - v := by
  unfold Spec.dist
  split
  · rw [le_antisymm h (by assumption)]
  · rfl

/-- Where `rank` points, for a value that is not the reserved one. -/
theorem rank_spec {data : List F} {res : Nat} (hr : res < data.length) (hs : (data.drop res).Pairwise (· ≤ ·)) {v : F}
    (hv : ¬ (res = 1 ∧ v = 0)) :
    ∃ r x, rank data res v = some r ∧ res ≤ r ∧ r < data.length ∧ data[r]? = some x ∧
      (∀ j y, res ≤ j → data[j]? = some y → Spec.dist v x ≤ Spec.dist v y) ∧
      (r = lowerBound data res v ∨ r + 1 = lowerBound data res v) ∧
      (lowerBound data res v = data.length → r + 1 = data.length) ∧ (lowerBound data res v = res → r = res) ∧
      (∀ p a, lowerBound data res v ≠ res → data[lowerBound data res v - 1]? = some p → data[lowerBound data res v]? = some a →
        (r + 1 = lowerBound data res v ↔ v - p < a - v)) := by
  obtain ⟨l1, l2, l3, l4⟩ := lowerBound_spec hr hs v
  unfold rank
  rw [if_neg hv]
  generalize lowerBound data res v = ab at l1 l2 l3 l4
  dsimp only
  by_cases h1 : ab = res
  · subst h1
    rw [if_pos rfl]
    refine ⟨ab, data[ab], rfl, le_refl _, hr, List.getElem?_eq_getElem hr, ?_, .inl rfl, by omega, fun _ => rfl, fun _ _ h => absurd rfl h⟩
    intro j y hj hy
    have g1 := l4 ab _ (le_refl _) (List.getElem?_eq_getElem hr)
    have g2 := sorted_le hs (le_refl _) hj (List.getElem?_eq_getElem hr) hy
    exact dist_above g1 g2
  · rw [if_neg h1]
    by_cases h2 : ab = data.length
    · rw [if_pos h2]
      have hlt : data.length - 1 < data.length := by omega
      refine ⟨data.length - 1, data[data.length - 1], rfl, by omega, hlt, List.getElem?_eq_getElem hlt, ?_, .inr (by omega), by omega,
        fun h => absurd h h1, ?_⟩
      · intro j y hj hy
        have hjl := (List.getElem?_eq_some_iff.1 hy).1
        have g1 := l3 (data.length - 1) _ (by omega) (by omega) (List.getElem?_eq_getElem hlt)
        have g2 := sorted_le hs hj (by omega : j ≤ data.length - 1) hy (List.getElem?_eq_getElem hlt)
        exact dist_below g2 g1.le
      · intro p a _ _ ha
        have := (List.getElem?_eq_some_iff.1 ha).1
        omega
    · rw [if_neg h2]
      have hl1 : ab - 1 < data.length := by omega
      have hl2 : ab < data.length := by omega
      rw [List.getElem?_eq_getElem hl1, List.getElem?_eq_getElem hl2, Option.bind_some, Option.map_some]
      have g1 := l3 (ab - 1) _ (by omega) (by omega) (List.getElem?_eq_getElem hl1)
      have g2 := l4 ab _ (le_refl _) (List.getElem?_eq_getElem hl2)
      have key : ∀ j y, res ≤ j → data[j]? = some y → y ≤ data[ab - 1] ∨ data[ab] ≤ y := by
        intro j y hj hy
        rcases Nat.lt_or_ge j ab with h | h
        · exact .inl (sorted_le hs hj (by omega) hy (List.getElem?_eq_getElem hl1))
        · exact .inr (sorted_le hs l1 h (List.getElem?_eq_getElem hl2) hy)
      by_cases hc : v - data[ab - 1] < data[ab] - v
      · rw [if_pos hc]
        refine ⟨ab - 1, data[ab - 1], rfl, by omega, hl1, List.getElem?_eq_getElem hl1, ?_, .inr (by omega), by omega, by omega, ?_⟩
        · intro j y hj hy
          rcases key j y hj hy with h | h
          · exact dist_below h g1.le
          · refine le_trans ?_ (dist_above g2 h)
            rw [dist_left g1.le, dist_right g2]
            exact hc.le
        · intro p a _ hp ha
          simp at hp ha
          subst hp ha
          exact ⟨fun _ => hc, fun _ => by omega⟩
      · rw [if_neg hc]
        refine ⟨ab, data[ab], rfl, by omega, hl2, List.getElem?_eq_getElem hl2, ?_, .inl rfl, by omega, by omega, ?_⟩
        · intro j y hj hy
          rcases key j y hj hy with h | h
          · refine le_trans ?_ (dist_below h g1.le)
            rw [dist_left g1.le, dist_right g2]
            exact not_lt.1 hc
          · exact dist_above g2 h
        · intro p a _ hp ha
          simp at hp ha
          subst hp ha
          exact ⟨fun h => by omega, fun h => absurd h hc⟩

theorem lowerBound_mono {data : List F} {res : Nat} (hr : res < data.length) (hs : (data.drop res).Pairwise (· ≤ ·)) {v w : F} (hvw : v ≤ w) :
    lowerBound data res v ≤ lowerBound data res w := by
  obtain ⟨l1, l2, l3, l4⟩ := lowerBound_spec hr hs v
  obtain ⟨m1, m2, m3, m4⟩ := lowerBound_spec hr hs w
  by_contra h
  have hlt : lowerBound data res w < data.length := by omega
  have g1 := l3 _ _ m1 (by omega) (List.getElem?_eq_getElem hlt)
  have g2 := m4 _ _ (le_refl _) (List.getElem?_eq_getElem hlt)
  exact absurd (lt_of_lt_of_le g1 hvw) (not_lt.2 g2)

theorem rank_mono {data : List F} {res : Nat} (hr : res < data.length) (hs : (data.drop res).Pairwise (· ≤ ·)) {v w : F}
    (hv : ¬ (res = 1 ∧ v = 0)) (hw : ¬ (res = 1 ∧ w = 0)) (hvw : v ≤ w) {r r' : Nat} (h1 : rank data res v = some r)
    (h2 : rank data res w = some r') : r ≤ r' := by
  obtain ⟨a, x, a1, a2, a3, a4, -, a5, a6, a7, a8⟩ := rank_spec hr hs hv
  obtain ⟨b, y, b1, b2, b3, b4, -, b5, b6, b7, b8⟩ := rank_spec hr hs hw
  rw [a1] at h1; cases h1
  rw [b1] at h2; cases h2
  have hm := lowerBound_mono hr hs hvw
  obtain ⟨m1, m2, -, -⟩ := lowerBound_spec hr hs w
  rcases Nat.eq_or_lt_of_le hm with he | hlt
  · rw [← he] at b5 b6 b7 b8 m1 m2
    by_cases hres : lowerBound data res v = res
    · have := a7 hres; have := b7 hres; omega
    · by_cases hend : lowerBound data res v = data.length
      · have := a6 hend; have := b6 hend; omega
      · have hp := List.getElem?_eq_getElem (show lowerBound data res v - 1 < data.length by omega)
        have ha := List.getElem?_eq_getElem (show lowerBound data res v < data.length by omega)
        have i1 := a8 _ _ hres hp ha
        have i2 := b8 _ _ hres hp ha
        by_cases hb : r' + 1 = lowerBound data res v
        · have := i2.1 hb
          have := i1.2 (lt_of_le_of_lt (FloatArith.sub_le_left _ _ _ hvw) (lt_of_lt_of_le this (FloatArith.sub_le_right _ _ _ hvw)))
          omega
        · omega
  · omega

end Quant

/-- C21, codebook of probabilities.  For any values and number of bits the builder accepts (2 to 32 bits, at least
`2^bits` values), the codebook has `2^bits` centroids, in increasing order, each between two of the values; every value
whatsoever is given a rank in it, of a nearest centroid; larger values never get smaller ranks. -/
theorem C21_probability_quantiser {F : Type} [FloatArith F] {sort : List F → List F}
    (hsort : ∀ l, (sort l).Perm l ∧ (sort l).Pairwise (· ≤ ·)) (negInf : F) {vals : List F} {bits : Nat} (hb : 2 ≤ bits ∧ bits ≤ 32)
    (hn : 2 ^ bits ≤ vals.length) (hok : FloatArith.BinOK F (vals.length / 2 ^ bits + 1)) :
    ∃ code, Quant.buildProbs sort negInf vals bits = some (.ok code) ∧ code.length = 2 ^ bits ∧ code.Pairwise (· ≤ ·) ∧
      (∀ c ∈ code, (∃ x ∈ vals, x ≤ c) ∧ ∃ x ∈ vals, c ≤ x) ∧
      (∀ v, ∃ r c, Quant.rank code 0 v = some r ∧ r < 2 ^ bits ∧ Quant.access code r = some c ∧ ∀ c' ∈ code, Spec.dist v c ≤ Spec.dist v c') ∧
      (∀ v w r r', v ≤ w → Quant.rank code 0 v = some r → Quant.rank code 0 w = some r' → r ≤ r') := by
  obtain ⟨hp, hs⟩ := hsort vals
  have hpos : 0 < 2 ^ bits := Nat.pow_pos (by omega)
  obtain ⟨code, e1, e2, e3, e4⟩ := Quant.makeBins_spec negInf hs hpos (by rw [hp.length_eq]; exact hn) (by rw [hp.length_eq]; exact hok) (2 ^ bits) 0 (by omega) [] []
    rfl List.Pairwise.nil (by simp) (by simp)
  rw [Nat.mul_zero, Nat.zero_div] at e1
  refine ⟨code, ?_, e2, e3, ?_, ?_, ?_⟩
  · unfold Quant.buildProbs Quant.bitsOK
    rw [if_pos (by simp; exact ⟨hb.1, hb.2, .inr hn⟩)]
    simp only [List.nil_append] at e1
    rw [e1, Res.lift_some]
  · intro c hc
    obtain ⟨⟨x, hx, h1⟩, ⟨y, hy, h2⟩⟩ := e4 c hc
    exact ⟨⟨x, hp.mem_iff.1 hx, h1⟩, ⟨y, hp.mem_iff.1 hy, h2⟩⟩
  · intro v
    obtain ⟨r, x, h1, -, h3, h4, h5, -⟩ := Quant.rank_spec (data := code) (res := 0) (by omega) (by simpa using e3) (v := v) (by omega)
    refine ⟨r, x, h1, by omega, h4, ?_⟩
    intro c hc
    obtain ⟨j, hj, rfl⟩ := List.mem_iff_getElem.1 hc
    exact h5 j _ (Nat.zero_le _) (List.getElem?_eq_getElem hj)
  · intro v w r r' hvw h1 h2
    exact Quant.rank_mono (res := 0) (by omega) (by simpa using e3) (by omega) (by omega) hvw h1 h2

/-- C21, codebook of backoffs: the first of the `2^bits` entries is 0 and is the one given to the value 0 exactly; the others
are centroids in increasing order, each between two of the values; every other value is given the rank (from 1) of a nearest one of
these; ranks of values other than 0 never decrease with the value. -/
theorem C21_backoff_quantiser {F : Type} [FloatArith F] {sort : List F → List F}
    (hsort : ∀ l, (sort l).Perm l ∧ (sort l).Pairwise (· ≤ ·)) (negInf : F) {vals : List F} {bits : Nat} (hb : 2 ≤ bits ∧ bits ≤ 32)
    (hn : 2 ^ bits ≤ vals.length) (hok : FloatArith.BinOK F (vals.length / (2 ^ bits - 1) + 1)) :
    ∃ code, Quant.buildBackoffs sort negInf vals bits = some (.ok (0 :: code)) ∧ code.length = 2 ^ bits - 1 ∧ code.Pairwise (· ≤ ·) ∧
      (∀ c ∈ code, (∃ x ∈ vals, x ≤ c) ∧ ∃ x ∈ vals, c ≤ x) ∧
      (Quant.rank (0 :: code) 1 0 = some 0 ∧ Quant.access (0 :: code) 0 = some 0) ∧
      (∀ v, v ≠ 0 → ∃ r c, Quant.rank (0 :: code) 1 v = some r ∧ 1 ≤ r ∧ r < 2 ^ bits ∧ Quant.access (0 :: code) r = some c ∧ c ∈ code ∧
        ∀ c' ∈ code, Spec.dist v c ≤ Spec.dist v c') ∧
      (∀ v w r r', v ≠ 0 → w ≠ 0 → v ≤ w → Quant.rank (0 :: code) 1 v = some r → Quant.rank (0 :: code) 1 w = some r' → r ≤ r') := by
  obtain ⟨hp, hs⟩ := hsort vals
  have h4 : 4 ≤ 2 ^ bits := by
    calc 4 = 2 ^ 2 := rfl
      _ ≤ 2 ^ bits := Nat.pow_le_pow_right (by omega) hb.1
  obtain ⟨code, e1, e2, e3, e4⟩ := Quant.makeBins_spec negInf hs (m := 2 ^ bits - 1) (by omega) (by rw [hp.length_eq]; omega) (by rw [hp.length_eq]; exact hok) (2 ^ bits - 1) 0
    (by omega) [0] [] rfl List.Pairwise.nil (by simp) (by simp)
  rw [Nat.mul_zero, Nat.zero_div] at e1
  have hlen : (0 :: code).length = 2 ^ bits := by rw [List.length_cons, e2]; omega
  have hdrop : ((0 :: code).drop 1).Pairwise (· ≤ ·) := e3
  refine ⟨code, ?_, e2, e3, ?_, ⟨?_, rfl⟩, ?_, ?_⟩
  · unfold Quant.buildBackoffs Quant.bitsOK
    rw [if_pos (by simp; exact ⟨hb.1, hb.2, .inr hn⟩)]
    rw [List.append_nil] at e1
    rw [e1, Res.lift_some]
    rfl
  · intro c hc
    obtain ⟨⟨x, hx, h1⟩, ⟨y, hy, h2⟩⟩ := e4 c hc
    exact ⟨⟨x, hp.mem_iff.1 hx, h1⟩, ⟨y, hp.mem_iff.1 hy, h2⟩⟩
  · unfold Quant.rank
    rw [if_pos ⟨rfl, rfl⟩]
  · intro v hv
    obtain ⟨r, x, h1, h2, h3, h4, h5, -⟩ := Quant.rank_spec (data := 0 :: code) (res := 1) (by omega) hdrop (v := v) (by tauto)
    refine ⟨r, x, h1, h2, by omega, h4, ?_, ?_⟩
    · obtain ⟨m, rfl⟩ : ∃ m, r = m + 1 := ⟨r - 1, by omega⟩
      exact List.mem_of_getElem? (by simpa using h4)
    · intro c hc
      obtain ⟨j, hj, rfl⟩ := List.mem_iff_getElem.1 hc
      exact h5 (j + 1) _ (by omega) (by simp)
  · intro v w r r' hv hw hvw h1 h2
    exact Quant.rank_mono (res := 1) (by omega) hdrop (by tauto) (by tauto) hvw h1 h2

/-- The hypotheses can be met: rationals, 2 bits, a merge sort. -/
example : ∃ code, Quant.buildProbs (F := ℚ) (fun l => l.mergeSort) (-99) [-1, -3, -2, -2, -5] 2 = some (.ok code) ∧ code.length = 4 := by
  obtain ⟨code, h1, h2, -⟩ := C21_probability_quantiser (F := ℚ) (sort := fun l => l.mergeSort)
    (fun l => ⟨List.mergeSort_perm _ _, by
      have := List.pairwise_mergeSort (le := fun a b : ℚ => decide (a ≤ b)) (fun a b c => by simpa using le_trans) (fun a b => by simpa using le_total a b) l
      simpa using this⟩) (-99) (vals := [-1, -3, -2, -2, -5]) (bits := 2) (by omega) (by decide) trivial
  exact ⟨code, h1, h2⟩

/-- They can be met with the rounding arithmetic of `float` too. -/
example : ∃ code, Quant.buildProbs (F := Binary32) (fun l => l.mergeSort) (.ofRat (-99))
    ([-1/10, -3/10, -2/7, -2/7, -5].map Binary32.ofRat) 2 = some (.ok code) ∧ code.length = 4 := by
  obtain ⟨code, h1, h2, -⟩ := C21_probability_quantiser (F := Binary32) (sort := fun l => l.mergeSort)
    (fun l => ⟨List.mergeSort_perm _ _, by
      have := List.pairwise_mergeSort (le := fun a b : Binary32 => decide (a ≤ b)) (fun a b c => by simpa using le_trans)
        (fun a b => by simpa using le_total a b) l
      simpa using this⟩) (.ofRat (-99)) (vals := [-1/10, -3/10, -2/7, -2/7, -5].map Binary32.ofRat) (bits := 2) (by omega) (by simp)
    (show _ ≤ _ by simp)
  exact ⟨code, h1, h2⟩

end Tongrams
