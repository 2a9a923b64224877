import Verif.Word

/-!
# util::binary_search (util.hpp:379-397)
-/

namespace Tongrams

/-- Outcome of a binary search: found with the returned rank; `return false`; a read outside the sequence (undefined
behaviour); the number of steps allowed was not enough. -/
inductive BSResult
  | found (rank : Nat)
  | absent
  | oob
  | outOfSteps
deriving DecidableEq

/-- The loop of `binary_search` (util.hpp:383-396); `first`, `second` are the adaptor's functions applied to the
sequence, `none` outside it.  The arithmetic is that of `uint64_t`: `mid - 1` wraps. -/
def bsLoop (first second : Nat → Option Nat) (x : Nat) : Nat → Nat → Nat → BSResult
  | 0, _, _ => .outOfSteps
  | f + 1, lo, hi =>
    if lo ≤ hi then
      let mid := lo + (hi - lo) / 2
      match first mid with
      | none => .oob
      | some v =>
        if v = x then
          match second mid with
          | none => .oob
          | some r => .found r
        else if v > x then bsLoop first second x f lo ((mid + (2 ^ 64 - 1)) % 2 ^ 64)
        else bsLoop first second x f ((mid + 1) % 2 ^ 64) hi
    else .absent

/-- `binary_search(s, n, x, rank, adaptor)` (util.hpp:379-397); `n - 1` wraps. -/
def binarySearch (first second : Nat → Option Nat) (n x steps : Nat) : BSResult :=
  bsLoop first second x steps 0 ((n + (2 ^ 64 - 1)) % 2 ^ 64)

namespace BinSearch

theorem loop_present {first second : Nat → Option Nat} {n x i r : Nat} (hn : n < 2 ^ 63)
    (hdef : ∀ j, j < n → ∃ v, first j = some v)
    (hmono : ∀ a b v w, a < b → first a = some v → first b = some w → v < w)
    (hix : first i = some x) (hr : second i = some r) :
    ∀ (steps lo hi : Nat), lo ≤ i → i ≤ hi → hi < n → hi - lo < steps →
      bsLoop first second x steps lo hi = .found r := by
  intro steps
  induction steps with
  | zero => intro lo hi _ _ _ h; omega
  | succ f ih =>
    intro lo hi h1 h2 h3 h4
    rw [bsLoop, if_pos (by omega)]
    obtain ⟨v, hv⟩ := hdef (lo + (hi - lo) / 2) (by omega)
    simp only [hv]
    rcases Nat.lt_trichotomy (lo + (hi - lo) / 2) i with hm | hm | hm
    · have := hmono _ _ _ _ hm hv hix
      rw [if_neg (by omega), if_neg (by omega), Nat.mod_eq_of_lt (by omega)]
      exact ih _ _ (by omega) h2 h3 (by omega)
    · rw [hm] at hv ⊢
      have : v = x := by have h := hv.symm.trans hix; simpa using h
      rw [if_pos this, hr]
    · have := hmono _ _ _ _ hm hix hv
      rw [if_neg (by omega), if_pos (by omega),
        show lo + (hi - lo) / 2 + (2 ^ 64 - 1) = (lo + (hi - lo) / 2 - 1) + 2 ^ 64 by omega, Nat.add_mod_right,
        Nat.mod_eq_of_lt (by omega)]
      exact ih _ _ h1 (by omega) (by omega) (by omega)

theorem loop_absent {first second : Nat → Option Nat} {n x : Nat} (hn : n < 2 ^ 63)
    (hdef : ∀ j, j < n → ∃ v, first j = some v) (hx : ∀ j v, first j = some v → v ≠ x)
    (h0 : ∀ v, first 0 = some v → v < x) :
    ∀ (steps lo hi : Nat), lo ≤ hi + 1 → hi < n → hi + 1 - lo < steps → bsLoop first second x steps lo hi = .absent := by
  intro steps
  induction steps with
  | zero => intro lo hi _ _ h; omega
  | succ f ih =>
    intro lo hi h1 h3 h4
    rw [bsLoop]
    split
    · obtain ⟨v, hv⟩ := hdef (lo + (hi - lo) / 2) (by omega)
      have hvx := hx _ _ hv
      simp only [hv]
      rw [if_neg hvx]
      split
      · have hpos : 0 < lo + (hi - lo) / 2 := by
          rcases Nat.eq_zero_or_pos (lo + (hi - lo) / 2) with h | h
          · rw [h] at hv; have := h0 v hv; omega
          · exact h
        rw [show lo + (hi - lo) / 2 + (2 ^ 64 - 1) = (lo + (hi - lo) / 2 - 1) + 2 ^ 64 by omega, Nat.add_mod_right,
          Nat.mod_eq_of_lt (by omega)]
        exact ih _ _ (by omega) (by omega) (by omega)
      · rw [Nat.mod_eq_of_lt (by omega)]
        exact ih _ _ (by omega) h3 (by omega)
    · rfl

theorem loop_below {first second : Nat → Option Nat} {n x : Nat} (hn : n < 2 ^ 63)
    (hdef : ∀ j, j < n → ∃ v, first j = some v) (hoob : ∀ j, n ≤ j → first j = none)
    (hx : ∀ j v, first j = some v → x < v) :
    ∀ (steps hi : Nat), hi < n → hi + 2 < steps → bsLoop first second x steps 0 hi = .oob := by
  intro steps
  induction steps with
  | zero => intro hi _ h; omega
  | succ f ih =>
    intro hi h3 h4
    rw [bsLoop, if_pos (by omega)]
    obtain ⟨v, hv⟩ := hdef (0 + (hi - 0) / 2) (by omega)
    have hvx := hx _ _ hv
    simp only [hv]
    rw [if_neg (by omega), if_pos hvx]
    by_cases hm : 0 + (hi - 0) / 2 = 0
    · rw [hm, Nat.zero_add, Nat.mod_eq_of_lt (by omega)]
      obtain ⟨g, rfl⟩ : ∃ g, f = g + 1 := ⟨f - 1, by omega⟩
      rw [bsLoop, if_pos (by omega)]
      simp only [hoob (0 + (2 ^ 64 - 1 - 0) / 2) (by omega)]
    · rw [show 0 + (hi - 0) / 2 + (2 ^ 64 - 1) = (0 + (hi - 0) / 2 - 1) + 2 ^ 64 by omega, Nat.add_mod_right,
        Nat.mod_eq_of_lt (by omega)]
      exact ih _ (by omega) (by omega)

end BinSearch

/-- Specification: the sequence `l` of pairs is strictly increasing in the first components. -/
def Spec.StrictKeys (l : List (Nat × Nat)) : Prop := l.Pairwise fun a b => a.1 < b.1

/-- The adaptor over a vector of pairs (sequence_collections.hpp:184-192). -/
def pairsFirst (l : List (Nat × Nat)) (i : Nat) : Option Nat := l[i]?.map (·.1)

/-- See `pairsFirst`. -/
def pairsSecond (l : List (Nat × Nat)) (i : Nat) : Option Nat := l[i]?.map (·.2)

namespace BinSearch

theorem pairs_def {l : List (Nat × Nat)} : ∀ j, j < l.length → ∃ v, pairsFirst l j = some v := by
  intro j hj
  exact ⟨l[j].1, by rw [pairsFirst, List.getElem?_eq_getElem hj]; rfl⟩

theorem pairs_mono {l : List (Nat × Nat)} (h : Spec.StrictKeys l) :
    ∀ a b v w, a < b → pairsFirst l a = some v → pairsFirst l b = some w → v < w := by
  intro a b v w hab h1 h2
  rw [pairsFirst, Option.map_eq_some_iff] at h1 h2
  obtain ⟨p, p1, rfl⟩ := h1
  obtain ⟨q, q1, rfl⟩ := h2
  obtain ⟨ha, rfl⟩ := List.getElem?_eq_some_iff.1 p1
  obtain ⟨hb, rfl⟩ := List.getElem?_eq_some_iff.1 q1
  exact List.pairwise_iff_getElem.1 h a b ha hb hab

end BinSearch

/-- C39. In every sequence of pairs with strictly increasing keys, a key that occurs is found, with the value paired with it. -/
theorem C39_binary_search_present {l : List (Nat × Nat)} (hs : Spec.StrictKeys l) (hn : l.length < 2 ^ 63) {x r : Nat}
    (hx : (x, r) ∈ l) {steps : Nat} (hst : l.length < steps) :
    binarySearch (pairsFirst l) (pairsSecond l) l.length x steps = .found r := by
  obtain ⟨i, hi, e⟩ := List.mem_iff_getElem.1 hx
  have hi' : l[i]? = some (x, r) := by rw [List.getElem?_eq_getElem hi, e]
  unfold binarySearch
  rw [show l.length + (2 ^ 64 - 1) = (l.length - 1) + 2 ^ 64 by omega, Nat.add_mod_right, Nat.mod_eq_of_lt (by omega)]
  exact BinSearch.loop_present hn BinSearch.pairs_def (BinSearch.pairs_mono hs) (by rw [pairsFirst, hi']; rfl)
    (by rw [pairsSecond, hi']; rfl) _ _ _ (by omega) (by omega) (by omega) (by omega)

/-- C39. A key that does not occur but is above the smallest key is reported absent. -/
theorem C39_binary_search_absent {l : List (Nat × Nat)} (hn : l.length < 2 ^ 63) {x : Nat}
    (hx : ∀ p ∈ l, p.1 ≠ x) (hne : l ≠ []) (h0 : ∀ p, l.head? = some p → p.1 < x) {steps : Nat} (hst : l.length < steps) :
    binarySearch (pairsFirst l) (pairsSecond l) l.length x steps = .absent := by
  have hpos := List.length_pos_iff.2 hne
  unfold binarySearch
  rw [show l.length + (2 ^ 64 - 1) = (l.length - 1) + 2 ^ 64 by omega, Nat.add_mod_right, Nat.mod_eq_of_lt (by omega)]
  refine BinSearch.loop_absent hn BinSearch.pairs_def ?_ ?_ _ _ _ (by omega) (by omega) (by omega)
  · intro j v hv
    rw [pairsFirst, Option.map_eq_some_iff] at hv
    obtain ⟨p, p1, rfl⟩ := hv
    exact hx p (List.mem_of_getElem? p1)
  · intro v hv
    rw [pairsFirst, Option.map_eq_some_iff, ← List.head?_eq_getElem?] at hv
    obtain ⟨p, p1, rfl⟩ := hv
    exact h0 p p1

/-- C39, defect: for every non-empty sequence and every key below the smallest one, `hi = mid - 1` wraps around and
the search reads outside the sequence; on an empty sequence it does so at once. -/
theorem C39_below_minimum_defect {l : List (Nat × Nat)} (hn : l.length < 2 ^ 63) {x : Nat} (hx : ∀ p ∈ l, x < p.1)
    {steps : Nat} (hst : l.length + 2 < steps) :
    binarySearch (pairsFirst l) (pairsSecond l) l.length x steps = .oob := by
  have hoob : ∀ j, l.length ≤ j → pairsFirst l j = none := by
    intro j hj; rw [pairsFirst, List.getElem?_eq_none hj]; rfl
  have hlt : ∀ j v, pairsFirst l j = some v → x < v := by
    intro j v hv
    rw [pairsFirst, Option.map_eq_some_iff] at hv
    obtain ⟨p, p1, rfl⟩ := hv
    exact hx p (List.mem_of_getElem? p1)
  unfold binarySearch
  rcases Nat.eq_zero_or_pos l.length with h | h
  · obtain ⟨g, rfl⟩ : ∃ g, steps = g + 1 := ⟨steps - 1, by omega⟩
    rw [h, Nat.zero_add, Nat.mod_eq_of_lt (by omega), bsLoop, if_pos (by omega)]
    simp only [hoob (0 + (2 ^ 64 - 1 - 0) / 2) (by omega)]
  · rw [show l.length + (2 ^ 64 - 1) = (l.length - 1) + 2 ^ 64 by omega, Nat.add_mod_right, Nat.mod_eq_of_lt (by omega)]
    exact BinSearch.loop_below hn BinSearch.pairs_def hoob hlt _ _ (by omega) (by omega)

/-- Non-vacuity: present, absent between two keys, above all keys, below all keys. -/
example : Spec.StrictKeys [(3, 10), (5, 11), (9, 12)] ∧
    binarySearch (pairsFirst [(3, 10), (5, 11), (9, 12)]) (pairsSecond [(3, 10), (5, 11), (9, 12)]) 3 9 10 = .found 12 ∧
    binarySearch (pairsFirst [(3, 10), (5, 11), (9, 12)]) (pairsSecond [(3, 10), (5, 11), (9, 12)]) 3 4 10 = .absent ∧
    binarySearch (pairsFirst [(3, 10), (5, 11), (9, 12)]) (pairsSecond [(3, 10), (5, 11), (9, 12)]) 3 1 10 = .oob :=
  ⟨by unfold Spec.StrictKeys; decide, by decide, by decide, by decide⟩

end Tongrams
