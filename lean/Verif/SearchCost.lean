import Verif.FastEF
import Verif.PropsDArray
import Verif.BinarySearch
import Verif.TrieCount
import Mathlib.Tactic.ByContra

/-!
C73: how much a search reads.  The searches of the other files with a budget: the same code, which gives up (`none`, `outOfSteps`) when it has read as many samples,
elements or words as it may.  With the budgets of the theorems they never give up.
-/

set_option linter.unusedSectionVars false

namespace Tongrams
open BitVector

namespace EF

/-- After STEP (1) of the scan (fast_ef_sequence.hpp:301-349), with at most `low` low parts read. -/
def scanTailWithin (e : EF) (low hi id : Nat) : Option (Nat × Nat × UnaryIter) → Option Nat
  | none => some NF
  | some (lo, v, it) =>
    if v - lo > id / 2 ^ e.l then some NF
    else
      (it.skip0 1).bind fun it =>
        if low < min (it.position - v) (if lo ≤ hi then hi - lo else hi + 2 ^ 64 - lo) then none else
        scanLow e (BitVec.ofNat 64 id &&& ((1#64 <<< e.l) - 1#64)) (min (it.position - v) (if lo ≤ hi then hi - lo else hi + 2 ^ 64 - lo)) lo 0
          (if e.l ≠ 0 then 0 else e.d1.positions)

/-- The optimized scan (fast_ef_sequence.hpp:280-350) with at most `ones` calls of `next` and at most `ones` low parts read. -/
def scanWithin (e : EF) (ones lo hi id lowerBound : Nat) : Option Nat :=
  (UnaryIter.new e.high.bits (lo + lowerBound / 2 ^ e.l)).bind fun it =>
  it.next.bind fun r =>
  (scanHigh (id / 2 ^ e.l) hi ones lo r.1 r.2).bind (scanTailWithin e ones hi id)

/-- `bsearch_scan` (fast_ef_sequence.hpp:352-370) with at most `gets` calls of `operator[]`, and the scan with its budget. -/
def bsearchScanWithin (e : EF) (ones : Nat) : Nat → Nat → Nat → Nat → Nat → Option Nat
  | 0, lo, hi, id, lowerBound => if hi - lo > 64 then none else e.scanWithin ones lo hi id lowerBound
  | gets + 1, lo, hi, id, lowerBound =>
    if hi - lo > 64 then
      (e.get ((lo + hi) / 2)).bind fun v =>
        if id = v then some ((lo + hi) / 2)
        else if id < v then bsearchScanWithin e ones gets lo ((lo + hi) / 2) id lowerBound
        else bsearchScanWithin e ones gets ((lo + hi) / 2 + 1) hi id v
    else e.scanWithin ones lo hi id lowerBound

theorem scanHigh_fuel {highId hi : Nat} : ∀ (f g lo v : Nat) (it : UnaryIter), lo < hi → hi - lo ≤ f → f ≤ g →
    scanHigh highId hi f lo v it = scanHigh highId hi g lo v it ∧
      ∀ lo' v' it', scanHigh highId hi f lo v it = some (some (lo', v', it')) → lo ≤ lo' ∧ lo' < hi := by
  intro f
  induction f with
  | zero => intro g lo v it h1 h2; omega
  | succ f ih =>
    intro g lo v it h1 h2 h3
    obtain ⟨g, rfl⟩ : ∃ k, g = k + 1 := ⟨g - 1, by omega⟩
    rw [scanHigh, scanHigh]
    by_cases hv : v - lo < highId
    · rw [if_pos hv, if_pos hv]
      by_cases he : lo + 1 = hi
      · rw [if_pos he]
        exact ⟨by rw [if_pos he], fun _ _ _ h => by cases h⟩
      · rw [if_neg he, if_neg he]
        cases it.next with
        | none => exact ⟨rfl, fun _ _ _ h => by cases h⟩
        | some r =>
          simp only [Option.bind_some]
          obtain ⟨i1, i2⟩ := ih g (lo + 1) r.1 r.2 (by omega) (by omega) (by omega)
          exact ⟨i1, fun a b c h => by have := i2 a b c h; omega⟩
    · rw [if_neg hv, if_neg hv]
      exact ⟨rfl, fun _ _ _ h => by cases h; omega⟩

/-- With more fuel than the calls of `next` the answer is the same, if there is one. -/
theorem scanHigh_any {highId hi : Nat} : ∀ (f lo v : Nat) (it : UnaryIter) (x : Option (Nat × Nat × UnaryIter)), lo < hi →
    scanHigh highId hi f lo v it = some x → scanHigh highId hi (hi - lo) lo v it = some x := by
  intro f lo v it x h1 h2
  by_cases hf : hi - lo ≤ f
  · rw [(scanHigh_fuel (hi - lo) f lo v it h1 (Nat.le_refl _) hf).1]; exact h2
  · revert h2
    have : ∀ (f g lo v : Nat) (it : UnaryIter), f ≤ g → scanHigh highId hi f lo v it = some x → scanHigh highId hi g lo v it = some x := by
      intro f
      induction f with
      | zero => intro g lo v it _ h; cases h
      | succ f ih =>
        intro g lo v it hg h
        obtain ⟨g, rfl⟩ : ∃ k, g = k + 1 := ⟨g - 1, by omega⟩
        rw [scanHigh] at h ⊢
        by_cases hv : v - lo < highId
        · rw [if_pos hv] at h ⊢
          by_cases he : lo + 1 = hi
          · rw [if_pos he] at h ⊢; exact h
          · rw [if_neg he] at h ⊢
            cases e : it.next with
            | none => rw [e] at h; cases h
            | some r => rw [e] at h; exact ih g _ _ _ (by omega) h
        · rw [if_neg hv] at h ⊢; exact h
    exact this f _ _ _ _ (by omega)

theorem scanWithin_eq {e : EF} {ones lo hi id lb x : Nat} (h1 : lo < hi) (h2 : hi - lo ≤ ones) (h : e.scan lo hi id lb = some x) :
    e.scanWithin ones lo hi id lb = some x := by
  unfold scan at h
  unfold scanWithin
  obtain ⟨it, i1, h⟩ := Option.bind_eq_some_iff.1 h
  obtain ⟨r, i2, h⟩ := Option.bind_eq_some_iff.1 h
  obtain ⟨y, i3, h⟩ := Option.bind_eq_some_iff.1 h
  rw [i1, Option.bind_some, i2, Option.bind_some]
  have i4 := scanHigh_any _ _ _ _ _ h1 i3
  obtain ⟨j1, j2⟩ := scanHigh_fuel (highId := id / 2 ^ e.l) (hi - lo) ones lo r.1 r.2 h1 (Nat.le_refl _) h2
  rw [← j1, i4, Option.bind_some]
  cases y with
  | none => exact h
  | some y =>
    obtain ⟨lo', v, it'⟩ := y
    obtain ⟨k1, k2⟩ := j2 _ _ _ i4
    unfold scanTail at h
    unfold scanTailWithin
    simp only at h ⊢
    by_cases hv : v - lo' > id / 2 ^ e.l
    · rw [if_pos hv] at h ⊢; exact h
    · rw [if_neg hv] at h ⊢
      obtain ⟨it2, l1, h⟩ := Option.bind_eq_some_iff.1 h
      rw [l1, Option.bind_some]
      rw [if_neg (by rw [if_pos (Nat.le_of_lt k2)]; omega)]
      exact h

theorem bsearchScanWithin_eq {e : EF} {id : Nat} : ∀ (gets lo hi lb x : Nat), lo < hi → hi - lo ≤ 64 * 2 ^ gets →
    e.bsearchScan lo hi id lb = some x → e.bsearchScanWithin 64 gets lo hi id lb = some x := by
  intro gets
  induction gets with
  | zero =>
    intro lo hi lb x h1 h2 h
    rw [bsearchScan, dif_neg (by omega)] at h
    rw [bsearchScanWithin, if_neg (by omega)]
    exact scanWithin_eq h1 (by omega) h
  | succ gets ih =>
    intro lo hi lb x h1 h2 h
    rw [bsearchScan] at h
    rw [bsearchScanWithin]
    rw [Nat.pow_succ] at h2
    by_cases hs : hi - lo > 64
    · rw [dif_pos hs] at h
      rw [if_pos hs]
      obtain ⟨v, i1, h⟩ := Option.bind_eq_some_iff.1 h
      rw [i1, Option.bind_some]
      by_cases hv : id = v
      · rw [if_pos hv] at h ⊢; exact h
      · rw [if_neg hv] at h ⊢
        by_cases hl : id < v
        · rw [if_pos hl] at h ⊢; exact ih _ _ _ _ (by omega) (by omega) h
        · rw [if_neg hl] at h ⊢; exact ih _ _ _ _ (by omega) (by omega) h
    · rw [dif_neg hs] at h
      rw [if_neg hs]
      exact scanWithin_eq h1 (by omega) h

end EF

namespace FastEF

/-- The descent through the samples (fast_ef_sequence.hpp:123-141): `treeSearch`, but the range it ends with is searched with at most `gets` calls of `operator[]`
and the scan with its budget; it reads at most as many samples as the height of the tree. -/
def treeSearchWithin (f : FastEF) (ones gets base id : Nat) : Nat → Nat → Nat → Nat → Nat → Option Nat
  | 0, _, lo, hi, lowerBound => f.ef.bsearchScanWithin ones gets lo hi id lowerBound
  | h + 1, i, lo, hi, lowerBound =>
    (f.samplings[base + i]?).bind fun sample =>
      if id = sample then some ((lo + hi) / 2)
      else if id < sample then treeSearchWithin f ones gets base id h (2 * i) lo ((lo + hi) / 2) lowerBound
      else treeSearchWithin f ones gets base id h (2 * i + 1) ((lo + hi) / 2 + 1) hi sample

/-- `find(r, id, pos)` (fast_ef_sequence.hpp:66-147) with a budget: it reads at most `samples` elements of `m_samplings`, calls `operator[]` at most `gets` times,
and in the end calls `next` on the iterator over the high bits at most `ones` times and reads at most `ones` low parts. -/
def findWithin (f : FastEF) (samples gets ones lo hi id : Nat) : Option Nat :=
  if hi - lo ≥ 128 then
    if samples < treeHeight (hi - lo) + 1 then none else
    f.offsets.bind fun t =>
    (t.lookup lo).bind fun base =>
    (f.samplings[base.toNat]?).bind fun pu =>
      treeSearchWithin f ones gets base.toNat ((id + pu) % 2 ^ 64) (treeHeight (hi - lo)) 1 lo hi pu
  else if lo ≠ 0 then
    match gets with
    | 0 => none
    | gets + 1 => (f.ef.get (lo - 1)).bind fun pu => f.ef.bsearchScanWithin ones gets lo hi ((id + pu) % 2 ^ 64) pu
  else f.ef.bsearchScanWithin ones gets lo hi (id % 2 ^ 64) 0

theorem treeSearchWithin_eq {f : FastEF} {base id : Nat} : ∀ (r i lo hi lb x : Nat), 4 * 2 ^ r ≤ hi - lo + 2 → hi - lo ≤ 128 * 2 ^ r →
    treeSearch f base id r i lo hi lb = some x → treeSearchWithin f 64 2 base id r i lo hi lb = some x := by
  intro r
  induction r with
  | zero =>
    intro i lo hi lb x h1 h2 h
    exact EF.bsearchScanWithin_eq 2 lo hi lb x (by omega) (by omega) h
  | succ r ih =>
    intro i lo hi lb x h1 h2 h
    rw [Nat.pow_succ] at h1 h2
    rw [treeSearch] at h
    rw [treeSearchWithin]
    obtain ⟨s, i1, h⟩ := Option.bind_eq_some_iff.1 h
    rw [i1, Option.bind_some]
    by_cases hv : id = s
    · rw [if_pos hv] at h ⊢; exact h
    · rw [if_neg hv] at h ⊢
      have hp : 0 < 2 ^ r := Nat.two_pow_pos r
      by_cases hl : id < s
      · rw [if_pos hl] at h ⊢; exact ih _ _ _ _ _ (by omega) (by omega) h
      · rw [if_neg hl] at h ⊢; exact ih _ _ _ _ _ (by omega) (by omega) h

theorem height_log {n : Nat} (hn : 128 ≤ n) (h64 : n < 2 ^ 64) :
    treeHeight n + 1 ≤ Nat.log2 n - 5 ∧ 4 * 2 ^ treeHeight n ≤ n + 2 ∧ n ≤ 128 * 2 ^ treeHeight n := by
  have hs := ceilLog2_spec (BitVec.ofNat 64 n)
  rw [BitVec.toNat_ofNat, Nat.mod_eq_of_lt h64] at hs
  unfold treeHeight
  generalize ceilLog2 (BitVec.ofNat 64 n) = k at *
  obtain ⟨h1, h2, h3⟩ := hs
  have h2 := h2 (by omega)
  have hk : 7 ≤ k := by
    by_contra hc
    have : 2 ^ k ≤ 2 ^ 6 := Nat.pow_le_pow_right (by decide) (by omega)
    omega
  obtain ⟨j, rfl⟩ : ∃ j, k = j + 7 := ⟨k - 7, by omega⟩
  have hl : j + 6 ≤ Nat.log2 n := (Nat.le_log2 (by omega)).2 (Nat.le_of_lt h2)
  rw [show j + 7 - 1 = j + 6 by omega, Nat.pow_add] at h2
  rw [Nat.pow_add] at h1
  rw [show j + 7 - 7 = j by omega]
  omega

theorem pointer_le {ptrs : List Nat} {n j e : Nat} (hp : Spec.Pointers ptrs n) (h : ptrs[j]? = some e) : e ≤ n := by
  have hl := hp.last
  rw [List.getLast?_eq_getElem?] at hl
  obtain ⟨h1, rfl⟩ := List.getElem?_eq_some_iff.1 h
  obtain ⟨h2, rfl⟩ := List.getElem?_eq_some_iff.1 hl
  rcases Nat.lt_or_ge j (ptrs.length - 1) with hj | hj
  · exact List.pairwise_iff_getElem.1 hp.sorted _ _ h1 h2 hj
  · have : j = ptrs.length - 1 := by omega
    subst this; exact Nat.le_refl _

end FastEF

open FastEF in
/-- C73: a search among the `n` children of a node (`find` of a `fast_ef_sequence`) reads at most `log2 n - 5` samples, calls `operator[]` at most twice, moves to the
next one at most 64 times and reads at most 64 low parts; if there are fewer than 128 children it reads no sample. -/
theorem C73_find_cost {h : Mphf Nat 64} {grams ptrs : List Nat} (hne : grams ≠ [])
    (hp : Spec.Pointers ptrs grams.length) (hr : Spec.RangeSorted grams ptrs)
    (hb : ∀ v ∈ Spec.absVals grams ptrs [], v < 2 ^ 64) (hn : grams.length < 2 ^ 64 - 1)
    (hh : longBegins ptrs ≠ [] → h.BuiltFrom (longBegins ptrs)) :
    ∃ f, build h grams ptrs = some (.ok f) ∧
      ∀ j b e, ptrs[j]? = some b → ptrs[j + 1]? = some e → b < e → ∀ id, id < 2 ^ 64 →
        ∃ pos, f.findWithin (Nat.log2 (e - b) - 5) 2 64 b e id = some pos ∧ f.find b e id = some pos ∧ Spec.SearchResult grams b e id pos := by
  obtain ⟨f, e1, e2⟩ := C14_find_exact hne hp hr hb hn hh
  refine ⟨f, e1, fun j b e h1 h2 hbe id hid => ?_⟩
  obtain ⟨pos, p1, p2⟩ := e2 j b e h1 h2 hbe id hid
  refine ⟨pos, ?_, p1, p2⟩
  have he := pointer_le hp h2
  unfold find at p1
  unfold findWithin
  by_cases hl : e - b ≥ 128
  · obtain ⟨g1, g2, g3⟩ := height_log hl (by omega)
    rw [if_pos hl] at p1 ⊢
    rw [if_neg (by omega)]
    obtain ⟨t, i1, p1⟩ := Option.bind_eq_some_iff.1 p1
    obtain ⟨base, i2, p1⟩ := Option.bind_eq_some_iff.1 p1
    obtain ⟨pu, i3, p1⟩ := Option.bind_eq_some_iff.1 p1
    rw [i1, Option.bind_some, i2, Option.bind_some, i3, Option.bind_some]
    exact treeSearchWithin_eq _ _ _ _ _ _ g2 g3 p1
  · rw [if_neg hl] at p1 ⊢
    by_cases hb0 : b = 0
    · subst hb0
      rw [if_neg (by simp)]
      rw [if_neg (by simp), Option.bind_some] at p1
      exact EF.bsearchScanWithin_eq 2 _ _ _ _ hbe (by omega) p1
    · rw [if_pos hb0] at p1 ⊢
      obtain ⟨pu, i1, p1⟩ := Option.bind_eq_some_iff.1 p1
      simp only
      rw [i1, Option.bind_some]
      exact EF.bsearchScanWithin_eq 1 _ _ _ _ hbe (by omega) p1

namespace BinSearch

theorem loop_present_log {first second : Nat → Option Nat} {n x i r : Nat} (hn : n < 2 ^ 63)
    (hdef : ∀ j, j < n → ∃ v, first j = some v)
    (hmono : ∀ a b v w, a < b → first a = some v → first b = some w → v < w)
    (hix : first i = some x) (hr : second i = some r) :
    ∀ (steps lo hi : Nat), lo ≤ i → i ≤ hi → hi < n → hi + 1 - lo < 2 ^ steps →
      bsLoop first second x steps lo hi = .found r := by
  intro steps
  induction steps with
  | zero => intro lo hi _ _ _ h; omega
  | succ f ih =>
    intro lo hi h1 h2 h3 h4
    rw [Nat.pow_succ] at h4
    rw [bsLoop, if_pos (by omega)]
    obtain ⟨v, hv⟩ := hdef (lo + (hi - lo) / 2) (by omega)
    simp only [hv]
    rcases Nat.lt_trichotomy (lo + (hi - lo) / 2) i with hm | hm | hm
    · have := hmono _ _ _ _ hm hv hix
      rw [if_neg (by omega), if_neg (by omega), Nat.mod_eq_of_lt (by omega)]
      exact ih _ _ (by omega) h2 h3 (by omega)
    · rw [hm] at hv ⊢
      have : v = x := by have h := hv.symm.trans hix; simpa using h
      rw [if_pos this, hr]
    · have := hmono _ _ _ _ hm hix hv
      rw [if_neg (by omega), if_pos (by omega),
        show lo + (hi - lo) / 2 + (2 ^ 64 - 1) = (lo + (hi - lo) / 2 - 1) + 2 ^ 64 by omega, Nat.add_mod_right,
        Nat.mod_eq_of_lt (by omega)]
      exact ih _ _ h1 (by omega) (by omega) (by omega)

theorem loop_absent_log {first second : Nat → Option Nat} {n x : Nat} (hn : n < 2 ^ 63)
    (hdef : ∀ j, j < n → ∃ v, first j = some v) (hx : ∀ j v, first j = some v → v ≠ x)
    (h0 : ∀ v, first 0 = some v → v < x) :
    ∀ (steps lo hi : Nat), lo ≤ hi + 1 → hi < n → hi + 1 - lo < 2 ^ steps → bsLoop first second x (steps + 1) lo hi = .absent := by
  intro steps
  induction steps with
  | zero =>
    intro lo hi _ _ h
    rw [bsLoop, if_neg (by omega)]
  | succ f ih =>
    intro lo hi h1 h3 h4
    rw [Nat.pow_succ] at h4
    rw [bsLoop]
    split
    · obtain ⟨v, hv⟩ := hdef (lo + (hi - lo) / 2) (by omega)
      have hvx := hx _ _ hv
      simp only [hv]
      rw [if_neg hvx]
      split
      · have hpos : 0 < lo + (hi - lo) / 2 := by
          rcases Nat.eq_zero_or_pos (lo + (hi - lo) / 2) with h | h
          · rw [h] at hv; have := h0 v hv; omega
          · exact h
        rw [show lo + (hi - lo) / 2 + (2 ^ 64 - 1) = (lo + (hi - lo) / 2 - 1) + 2 ^ 64 by omega, Nat.add_mod_right,
          Nat.mod_eq_of_lt (by omega)]
        exact ih _ _ (by omega) (by omega) (by omega)
      · rw [Nat.mod_eq_of_lt (by omega)]
        exact ih _ _ (by omega) h3 (by omega)
    · rfl

end BinSearch

/-- C73: the binary search among `n` keys finds a key that occurs within `log2 n + 1` rounds. -/
theorem C73_binary_search_present {l : List (Nat × Nat)} (hs : Spec.StrictKeys l) (hn : l.length < 2 ^ 63) {x r : Nat} (hx : (x, r) ∈ l) :
    binarySearch (pairsFirst l) (pairsSecond l) l.length x (Nat.log2 l.length + 1) = .found r := by
  obtain ⟨i, hi, e⟩ := List.mem_iff_getElem.1 hx
  have hi' : l[i]? = some (x, r) := by rw [List.getElem?_eq_getElem hi, e]
  unfold binarySearch
  rw [show l.length + (2 ^ 64 - 1) = (l.length - 1) + 2 ^ 64 by omega, Nat.add_mod_right, Nat.mod_eq_of_lt (by omega)]
  have hlog : l.length < 2 ^ (Nat.log2 l.length + 1) := Nat.lt_log2_self
  exact BinSearch.loop_present_log hn BinSearch.pairs_def (BinSearch.pairs_mono hs) (by rw [pairsFirst, hi']; rfl)
    (by rw [pairsSecond, hi']; rfl) _ _ _ (by omega) (by omega) (by omega) (by omega)

/-- C73: a key that does not occur but is above the smallest one is reported absent within `log2 n + 2` rounds (the last one only sees that the range is empty). -/
theorem C73_binary_search_absent {l : List (Nat × Nat)} (hn : l.length < 2 ^ 63) {x : Nat}
    (hx : ∀ p ∈ l, p.1 ≠ x) (hne : l ≠ []) (h0 : ∀ p, l.head? = some p → p.1 < x) :
    binarySearch (pairsFirst l) (pairsSecond l) l.length x (Nat.log2 l.length + 2) = .absent := by
  have hpos := List.length_pos_iff.2 hne
  unfold binarySearch
  rw [show l.length + (2 ^ 64 - 1) = (l.length - 1) + 2 ^ 64 by omega, Nat.add_mod_right, Nat.mod_eq_of_lt (by omega)]
  have hlog : l.length < 2 ^ (Nat.log2 l.length + 1) := Nat.lt_log2_self
  refine BinSearch.loop_absent_log hn BinSearch.pairs_def ?_ ?_ _ _ _ (by omega) (by omega) (by omega)
  · intro j v hv
    rw [pairsFirst, Option.map_eq_some_iff] at hv
    obtain ⟨p, p1, rfl⟩ := hv
    exact hx p (List.mem_of_getElem? p1)
  · intro v hv
    rw [pairsFirst, Option.map_eq_some_iff, ← List.head?_eq_getElem?] at hv
    obtain ⟨p, p1, rfl⟩ := hv
    exact h0 p p1

/-! ## Select -/

namespace DArray

/-- The scan of `select` (darray.hpp:72-84) that looks at no more than `words` words of the vector. -/
def scanWithin (words : Nat) (g : W → W) (ws : List W) (start reminder : Nat) : Option Nat :=
  (rd ws (start / 64)).bind fun w =>
    (DArray.selLoop g ws words (start / 64) (g w &&& UnaryIter.onesFrom (start % 64)) reminder).bind DArray.selFinish

/-- `select(bv, idx)` (darray.hpp:55-86) that looks at no more than `words` words of the vector. -/
def selectWithin (words : Nat) (d : DArray) (g : W → W) (bv : BitVector) (idx : Nat) : Option Nat := do
  let blockPos ← d.blockInv[idx / 1024]?
  if blockPos < 0 then
    d.overflow[(-blockPos - 1).toNat + idx % 1024]?
  else do
    let sub ← d.subInv[idx / 32]?
    let start := blockPos.toNat + sub.toNat
    if idx % 32 = 0 then return start
    else scanWithin words g bv.bits start (idx % 32)

/-- The positions of a block that is not in the overflow list are less than 2^16 apart. -/
def Span (P : List Nat) (blockInv : List Int) : Prop :=
  ∀ (idx fr p : Nat), P[idx]? = some p → blockInv[idx / 1024]? = some (fr : Int) → p < fr + 65536

theorem flush_span {st : DState} {F : List Nat} (nb : F.length = 1024 * st.blockInv.length) (hle : st.cur.length ≤ 1024)
    (hsort : st.cur.Pairwise (· < ·)) (hs : Span F st.blockInv) : Span (F ++ st.cur) st.flush.blockInv := by
  intro idx fr p hp hb
  by_cases hi : idx < F.length
  · have hd : idx / 1024 < st.blockInv.length := by omega
    have hb' : st.blockInv[idx / 1024]? = some (fr : Int) := by
      unfold DState.flush at hb
      by_cases hc : st.cur.getLastD 0 - st.cur.headD 0 < 65536
      · simp only [if_pos hc] at hb
        rw [List.getElem?_append_left hd] at hb; exact hb
      · simp only [if_neg hc] at hb
        rw [List.getElem?_append_left hd] at hb; exact hb
    rw [List.getElem?_append_left hi] at hp
    exact hs idx fr p hp hb'
  · rw [List.getElem?_append_right (by omega)] at hp
    obtain ⟨hlt, rfl⟩ := List.getElem?_eq_some_iff.1 hp
    have e1 : idx / 1024 = st.blockInv.length := by omega
    have hback : st.cur.getLastD 0 = st.cur[st.cur.length - 1]'(by omega) := by
      rw [List.getLastD_eq_getLast?, List.getLast?_eq_getElem?, List.getElem?_eq_getElem (by omega)]; rfl
    have hm := le_of_pairwise_getElem hsort (show idx - F.length ≤ st.cur.length - 1 by omega) (by omega)
    unfold DState.flush at hb
    by_cases hc : st.cur.getLastD 0 - st.cur.headD 0 < 65536
    · simp only [if_pos hc] at hb
      rw [e1, List.getElem?_append_right (Nat.le_refl _), Nat.sub_self, List.getElem?_cons_zero] at hb
      have : (st.cur.headD 0 : Int) = (fr : Int) := Option.some.inj hb
      have : st.cur.headD 0 = fr := by exact_mod_cast this
      omega
    · simp only [if_neg hc] at hb
      rw [e1, List.getElem?_append_right (Nat.le_refl _), Nat.sub_self, List.getElem?_cons_zero] at hb
      have : (-(st.overflow.length : Int) - 1) = (fr : Int) := Option.some.inj hb
      omega

theorem foldl_push_span (P : List Nat) : ∀ (st : DState) (F : List Nat), F.length = 1024 * st.blockInv.length → st.cur.length < 1024 →
    Span F st.blockInv → (F ++ st.cur ++ P).Pairwise (· < ·) →
    ∃ F', F'.length = 1024 * (P.foldl DState.push st).blockInv.length ∧ (P.foldl DState.push st).cur.length < 1024 ∧
      Span F' (P.foldl DState.push st).blockInv ∧ F' ++ (P.foldl DState.push st).cur = F ++ st.cur ++ P := by
  induction P with
  | nil => intro st F h1 h2 h3 _; exact ⟨F, h1, h2, h3, by simp⟩
  | cons p P ih =>
    intro st F h1 h2 h3 hs
    rw [List.foldl_cons]
    have hsub : (st.cur ++ [p]).Pairwise (· < ·) := by
      have : (st.cur ++ [p]).Sublist (F ++ st.cur ++ p :: P) := by
        rw [List.append_assoc]
        refine List.Sublist.trans ?_ (List.sublist_append_right F _)
        exact List.Sublist.append_left (by simp) _
      exact List.Pairwise.sublist this hs
    have key : ∃ F1, F1.length = 1024 * (st.push p).blockInv.length ∧ (st.push p).cur.length < 1024 ∧ Span F1 (st.push p).blockInv ∧
        F1 ++ (st.push p).cur = F ++ st.cur ++ [p] := by
      unfold DState.push
      simp only
      by_cases hl : (st.cur ++ [p]).length = 1024
      · rw [if_pos hl]
        have hf := flush_span (st := { st with cur := st.cur ++ [p], positions := st.positions + 1 }) (F := F) h1 (by simp only; omega) hsub h3
        have e1 : ∀ s : DState, s.flush.blockInv.length = s.blockInv.length + 1 ∧ s.flush.cur = [] := by
          intro s
          unfold DState.flush
          simp only
          split <;> simp
        obtain ⟨e2, e3⟩ := e1 { st with cur := st.cur ++ [p], positions := st.positions + 1 }
        refine ⟨F ++ (st.cur ++ [p]), ?_, ?_, hf, ?_⟩
        · rw [e2, List.length_append, hl]; simp only; omega
        · rw [e3]; simp
        · rw [e3]; simp
      · rw [if_neg hl]
        refine ⟨F, h1, ?_, h3, by simp⟩
        simp only [List.length_append, List.length_singleton] at hl ⊢; omega
    obtain ⟨F1, a1, a2, a3, a4⟩ := key
    obtain ⟨F2, b1, b2, b3, b4⟩ := ih _ F1 a1 a2 a3 (by rw [a4]; simpa using hs)
    exact ⟨F2, b1, b2, b3, by rw [b4, a4]; simp⟩

theorem build_span {g : W → W} {bv : BitVector} {f : Nat → Bool} (hg : Getter g bv.bits f) (hs : bv.size ≤ 64 * bv.bits.length) {d : DArray}
    (hd : DArray.build g bv = some d) : Span (Spec.onesIn f 0 bv.size) d.blockInv := by
  unfold DArray.build at hd
  rw [buildLoop_spec hg bv.bits 0 _ rfl (by omega), show min (64 * bv.bits.length) bv.size = bv.size by omega] at hd
  simp only [Option.bind_eq_bind, Option.bind_some, Option.pure_def, Nat.zero_mul] at hd
  obtain ⟨F, h1, h2, h3, h4⟩ := foldl_push_span (Spec.onesIn f 0 bv.size) ⟨0, [], [], [], []⟩ [] (by simp) (by simp)
    (by intro idx fr p hp; simp at hp) (by simpa using onesIn_sorted f 0 bv.size)
  generalize (Spec.onesIn f 0 bv.size).foldl DState.push ⟨0, [], [], [], []⟩ = st at *
  simp only [List.nil_append, List.append_nil] at h4
  by_cases hc : st.cur.length ≠ 0
  · rw [if_pos hc] at hd
    cases hd
    rw [← h4]
    refine flush_span h1 (Nat.le_of_lt h2) ?_ h3
    exact List.Pairwise.sublist (List.sublist_append_right F _) (by rw [h4]; exact onesIn_sorted _ _ _)
  · rw [if_neg hc] at hd
    cases hd
    have h0 : st.cur = [] := List.eq_nil_of_length_eq_zero (Classical.not_not.1 hc)
    rw [h0, List.append_nil] at h4
    rw [← h4]; exact h3

theorem selLoop_rounds {g : W → W} {ws : List W} : ∀ (fuel i : Nat) (w : W) (r : Nat) (x : Nat × W × Nat), selLoop g ws fuel i w r = some x →
    i ≤ x.1 ∧ ∀ words, x.1 - i < words → selLoop g ws words i w r = some x := by
  intro fuel
  induction fuel with
  | zero => intro i w r x h; cases h
  | succ fuel ih =>
    intro i w r x h
    rw [selLoop] at h
    by_cases hc : r < popcount w
    · rw [if_pos hc] at h
      cases h
      refine ⟨Nat.le_refl _, fun words hw => ?_⟩
      obtain ⟨k, rfl⟩ : ∃ k, words = k + 1 := ⟨words - 1, by omega⟩
      rw [selLoop, if_pos hc]
    · rw [if_neg hc] at h
      cases e : rd ws (i + 1) with
      | none => rw [e] at h; cases h
      | some w' =>
        rw [e] at h
        obtain ⟨h1, h2⟩ := ih _ _ _ _ h
        refine ⟨by omega, fun words hw => ?_⟩
        obtain ⟨k, rfl⟩ : ∃ k, words = k + 1 := ⟨words - 1, by omega⟩
        rw [selLoop, if_neg hc, e]
        exact h2 k (by omega)

theorem selectWithin_eq {g : W → W} {bv : BitVector} {f : Nat → Bool} (hg : Getter g bv.bits f) (hs : bv.size ≤ 64 * bv.bits.length) {d : DArray}
    (hd : DArray.build g bv = some d) {idx q : Nat} (hq : q < bv.size) (hsel : Spec.IsSelect f idx q) : d.selectWithin 1025 g bv idx = some q := by
  obtain ⟨d', b1, b2⟩ := build_spec hg hs
  rw [hd] at b1; cases b1
  have hmain := select_spec hg hs b2 hq hsel
  have hspan := build_span hg hs hd
  have hP := (onesIn_getElem? f bv.size idx q).2 ⟨hq, hsel⟩
  unfold select at hmain
  unfold selectWithin
  obtain ⟨bp, i1, hmain⟩ := Option.bind_eq_some_iff.1 hmain
  simp only [Option.bind_eq_bind]
  rw [i1, Option.bind_some]
  by_cases hn : bp < 0
  · rw [if_pos hn] at hmain ⊢; exact hmain
  · rw [if_neg hn] at hmain ⊢
    obtain ⟨sub, i2, hmain⟩ := Option.bind_eq_some_iff.1 hmain
    rw [i2, Option.bind_some]
    by_cases h0 : idx % 32 = 0
    · rw [if_pos h0] at hmain ⊢; exact hmain
    · rw [if_neg h0] at hmain ⊢
      have hsp := hspan idx bp.toNat q hP (by rw [i1]; congr 1; omega)
      unfold scan at hmain
      unfold scanWithin
      obtain ⟨w, i3, hmain⟩ := Option.bind_eq_some_iff.1 hmain
      obtain ⟨x, i4, hmain⟩ := Option.bind_eq_some_iff.1 hmain
      rw [i3, Option.bind_some]
      obtain ⟨j1, j2⟩ := selLoop_rounds _ _ _ _ _ i4
      unfold selFinish at hmain
      obtain ⟨p, -, hx⟩ := Option.map_eq_some_iff.1 hmain
      rw [j2 1025 (by omega), Option.bind_some]
      exact hmain

end DArray

/-- C73: `select` of a `darray1` looks at no more than 1025 words of the bit vector, however far apart the ones are. -/
theorem C73_select_ones {b : BVBuilder} {l : List Bool} (h : BVHistory b l) :
    ∃ d, DArray.build id (BitVector.ofBuilder b) = some d ∧
      ∀ p (hp : p < l.length), l[p] = true → d.selectWithin 1025 id (BitVector.ofBuilder b) ((l.take p).count true) = some p := by
  obtain ⟨d, e, -, -⟩ := C11_darray1_select h
  have hbit : ∀ i (hi : i < l.length), bitAt b.bits i = l[i] := by
    intro i hi; rw [h.bitAt, List.getD_eq_getElem?_getD, List.getElem?_eq_getElem hi]; rfl
  have hsz : (ofBuilder b).size = l.length := h.size
  refine ⟨d, e, fun p hp hlp => ?_⟩
  exact DArray.selectWithin_eq (getter_id _) (by rw [hsz]; exact h.le) e (by rw [hsz]; exact hp)
    ⟨by rw [show bitAt (ofBuilder b).bits = bitAt b.bits from rfl, hbit p hp, hlp],
     by rw [show bitAt (ofBuilder b).bits = bitAt b.bits from rfl, rank_eq_count hbit _ (by omega)]⟩

/-- C73: the same for `darray0`, which selects zeros. -/
theorem C73_select_zeros {b : BVBuilder} {l : List Bool} (h : BVHistory b l) :
    ∃ d, DArray.build (fun w => ~~~w) (BitVector.ofBuilder b) = some d ∧
      ∀ p (hp : p < l.length), l[p] = false →
        d.selectWithin 1025 (fun w => ~~~w) (BitVector.ofBuilder b) ((l.take p).count false) = some p := by
  obtain ⟨d, e, -, -⟩ := C11_darray0_select h
  have hbit : ∀ i (hi : i < l.length), (fun i => !bitAt (ofBuilder b).bits i) i = !l[i] := by
    intro i hi
    simp only [ofBuilder]
    rw [h.bitAt, List.getD_eq_getElem?_getD, List.getElem?_eq_getElem hi]; rfl
  have hsz : (ofBuilder b).size = l.length := h.size
  refine ⟨d, e, fun p hp hlp => ?_⟩
  exact DArray.selectWithin_eq (getter_not _) (by rw [hsz]; exact h.le) e (by rw [hsz]; exact hp)
    ⟨by have := hbit p hp; simp only at this ⊢; rw [this, hlp]; rfl, rank_eq_count_false hbit _ (by omega)⟩

/-! ## Lookups -/

/-- The grams of a trie stored as `fast_ef_sequence` (as `GramsImpl.fastEF`), whose searches have the budget of `C73_find_cost`. -/
def GramsImpl.fastEFWithin (h : Nat → Mphf Nat 64) : GramsImpl where
  build ord ids ptrs := Res.bind (FastEF.build (h ord) ids ptrs) fun f =>
    some (.ok fun b e id => f.findWithin (Nat.log2 (e - b) - 5) 2 64 b e id)

namespace TrieImpl

theorem fastEFWithin_exact {ex : Nat → Nat → Prop} {h : Nat → Mphf Nat 64} {ord : Nat} {ids ptrs : List Nat} (hne : ids ≠ [])
    (hp : Spec.Pointers ptrs ids.length) (hr : Spec.RangeSorted ids ptrs) {M : Nat} (hM : ∀ v ∈ ids, v ≤ M)
    (hb : ids.length * M < 2 ^ 64) (hn : ids.length < 2 ^ 64 - 1)
    (hh : FastEF.longBegins ptrs ≠ [] → (h ord).BuiltFrom (FastEF.longBegins ptrs)) :
    (GramsImpl.fastEFWithin h).Exact ex ord ids ptrs := by
  have hlen := (FastEF.absVals_grouped hp).length
  obtain ⟨f, e1, e2⟩ := C73_find_cost (h := h ord) hne hp hr (by
    intro v hv
    have := absVals_le ids M hM ptrs [] (by simp) v hv
    rw [hlen] at this
    omega) hn hh
  refine ⟨fun b e id => f.findWithin (Nat.log2 (e - b) - 5) 2 64 b e id, ?_, ?_⟩
  · show Res.bind (FastEF.build (h ord) ids ptrs) _ = _
    rw [e1, Res.bind_ok]
  · intro j b e h1 h2 hbe id hid
    obtain ⟨pos, g1, -, g2⟩ := e2 j b e h1 h2 hbe id hid
    constructor
    · rintro ⟨i, i1, i2, i3⟩
      rcases g2 with g2 | ⟨-, g2⟩
      · exact ⟨pos, g1, g2⟩
      · exact absurd i3 (g2 i i1 i2)
    · intro _ hno
      rcases g2 with ⟨k1, k2, k3⟩ | ⟨rfl, -⟩
      · exact absurd k3 (hno pos k1 k2)
      · exact g1

end TrieImpl

namespace TrieCount
open Trie
variable {K : Type} [DecidableEq K]

theorem fastEFWithin_levels {ex : Nat → Nat → Prop} {U : List K} {files : List (List (List K × Nat))} {ro : Nat} (h : Spec.CountFiles U files ro)
    {hr : Nat → Mphf Nat 64} (hh : Spec.RangeHashes hr files) (k : Nat) (prev curr : List (List K))
    (hp : (files.map (·.map (·.1)))[k]? = some prev) (hc : (files.map (·.map (·.1)))[k + 1]? = some curr) :
    (GramsImpl.fastEFWithin hr).Exact ex (k + 2) (curr.map (Spec.storedId U ((files.map (·.map (·.1))).getD ro []) ro))
      (Spec.childPtrs List.dropLast curr prev) := by
  have hlr : ro ≠ 0 → ro < k + 1 → (files.map (·.map (·.1)))[ro]? = some ((files.map (·.map (·.1))).getD ro []) := by
    intro _ hlt
    have hkl := (List.getElem?_eq_some_iff.1 hc).1
    have : (files.map (·.map (·.1)))[ro]? = some ((files.map (·.map (·.1)))[ro]'(by omega)) := List.getElem?_eq_getElem _
    rw [getD_eq this]; exact this
  obtain ⟨ptrs, -, e2, -, e4, -⟩ :=
    C38_pointers_delimit_children (pat := List.dropLast) (lex_irrefl U) (lex_trans U) (h.data.sorted k prev hp)
      (patterns_sorted (h.data.len _ curr hc) (h.data.words _ curr hc) (h.data.sorted _ curr hc)) (h.data.prefix_closed k prev curr hp hc)
  subst e2
  have hp' := hp
  have hc' := hc
  rw [List.getElem?_map] at hp' hc'
  obtain ⟨f, hf, rfl⟩ := Option.map_eq_some_iff.1 hp'
  obtain ⟨g, hg, rfl⟩ := Option.map_eq_some_iff.1 hc'
  have hsz := h.size g (List.mem_of_getElem? hg)
  have hsl := len_of_size h (List.mem_of_getElem? hg)
  refine TrieImpl.fastEFWithin_exact (M := U.length) ?_ (by rw [List.length_map]; exact e4) (rangeSorted h.data hp hc hlr) ?_ ?_ ?_ (hh k f g hf hg)
  · have := h.data.nonempty _ _ hc
    intro e; exact this (List.map_eq_nil_iff.1 e)
  · intro v hv
    obtain ⟨q, hq, rfl⟩ := List.mem_map.1 hv
    exact Nat.le_of_lt (storedId_bound h.data hc hlr hq)
  · rw [List.length_map, List.length_map]; omega
  · rw [List.length_map, List.length_map]; omega

end TrieCount

/-- C73: the lookups of a trie of counts (with `fast_ef_sequence`) stay within this cost at every level: with searches that give up when they would read more, every
n-gram of the files still gets its count. -/
theorem C73_lookup_cost {K : Type} [DecidableEq K] {L : SortLib} (hL : L.Valid) {U : List K}
    {files : List (List (List K × Nat))} {ro : Nat} (h : Spec.CountFiles U files ro) {hv : Mphf K 64} (hb : hv.BuiltFrom U)
    {hr : Nat → Mphf Nat 64} (hh : Spec.RangeHashes hr files) (cr : CountRanks) (hcr : cr = .psef → ∀ f ∈ files, f.length < 2 ^ 32) :
    ∃ t, TrieCount.build L hv (GramsImpl.fastEFWithin hr) cr.impl ro files = some (.ok t) ∧
      ∀ f ∈ files, ∀ gram count, (gram, count) ∈ f → t.lookup gram = some count := by
  have hsz : ∀ f ∈ files, f.length < 2 ^ 57 := fun f hf => by have := TrieCount.len_of_size h hf; omega
  obtain ⟨t, e, hg⟩ := TrieCount.build_ok hL (ex := fun _ _ => True) h.data h.order_min h.order_max h.remapping h.counts hsz hb
    (fun k prev curr hp hc => TrieCount.fastEFWithin_levels h hh k prev curr hp hc) (TrieCount.ranks_ok h cr hcr)
  exact ⟨t, e, fun f hf gram count hm => TrieCount.lookup_present hg h.data h.remapping h.order_max hsz hf hm⟩

/-! ## Concrete cases -/

/-- 150 children: two samples at most. -/
example : ∃ f, FastEF.build FastEF.exMphf (List.range 150) [0, 150] = some (.ok f) ∧
    ∃ pos, f.findWithin 2 2 64 0 150 77 = some pos ∧ f.find 0 150 77 = some pos ∧ Spec.SearchResult (List.range 150) 0 150 77 pos := by
  have hr : Spec.RangeSorted (List.range 150) [0, 150] := by
    intro j b e h1 h2 i i1 i2
    have hj : j < 1 := by
      apply Nat.lt_of_not_le; intro hx; rw [List.getElem?_eq_none (by simp; omega)] at h2; cases h2
    have : j = 0 := by omega
    subst this
    simp at h1 h2; subst h1; subst h2
    rw [List.getD_eq_getElem?_getD, List.getD_eq_getElem?_getD, List.getElem?_range (by omega), List.getElem?_range (by omega)]
    simp
  obtain ⟨f, e, hf⟩ := C73_find_cost (h := FastEF.exMphf) (grams := List.range 150) (ptrs := [0, 150]) (by decide) ⟨rfl, by decide, rfl⟩ hr
    (by decide +kernel) (by rw [List.length_range]; decide) fun _ => FastEF.exMphf_built
  exact ⟨f, e, hf 0 0 150 rfl rfl (by decide) 77 (by decide)⟩

/-- Three keys: two rounds for a key that occurs, three for one that does not. -/
example : binarySearch (pairsFirst [(3, 10), (5, 11), (9, 12)]) (pairsSecond [(3, 10), (5, 11), (9, 12)]) 3 9 2 = .found 12 ∧
    binarySearch (pairsFirst [(3, 10), (5, 11), (9, 12)]) (pairsSecond [(3, 10), (5, 11), (9, 12)]) 3 6 3 = .absent :=
  ⟨C73_binary_search_present (l := [(3, 10), (5, 11), (9, 12)]) (by simp [Spec.StrictKeys]) (by decide) (by simp),
   C73_binary_search_absent (l := [(3, 10), (5, 11), (9, 12)]) (by decide) (by simp) (by simp) (by simp)⟩

/-- Two ones that are far apart. -/
example : ∃ b l, BVHistory b l ∧ l.length = 70000 ∧ ∃ d, DArray.build id (BitVector.ofBuilder b) = some d ∧
    ∃ k, d.selectWithin 1025 id (BitVector.ofBuilder b) k = some 69999 := by
  obtain ⟨b, l, h, hl, -, h2⟩ := sparse_history 70000 3 69999 (by decide) (by decide) (by decide)
  obtain ⟨d, e, hd⟩ := C73_select_ones h
  obtain ⟨hi, hv⟩ := List.getElem?_eq_some_iff.1 h2
  exact ⟨b, l, h, hl, d, e, _, hd 69999 hi hv⟩

open TrieCountExample in
example : ∃ t, TrieCount.build exLib MphExample.mphf (GramsImpl.fastEFWithin fun _ => FastEF.exMphf) RanksImpl.ic 2 files4 = some (.ok t) ∧
    ∀ f ∈ files4, ∀ gram count, (gram, count) ∈ f → t.lookup gram = some count :=
  C73_lookup_cost exLib_valid (files4_ok 2 (by omega)) MphExample.built hashes4 .ic (by simp)

end Tongrams
