import Verif.PropsBytes
import Verif.TriePointers
import Mathlib.Data.List.Lex

/-!
# C33: the n-gram comparators (sorters/sorter_common.hpp)
-/

namespace Tongrams

/-- The interface the comparator uses of the two byte-range iterators. -/
structure IterOps (σ : Type) where
  init : ByteRange → σ
  spaces : Mem → σ → Nat
  next : Mem → σ → Option (ByteRange × σ)

/-- `forward_byte_range_iterator` (iterators.hpp:93-124). -/
def fwdOps : IterOps FwdIter := ⟨FwdIter.init, FwdIter.spaces, FwdIter.next⟩
/-- `backward_byte_range_iterator` (iterators.hpp:126-154). -/
def bwdOps : IterOps BwdIter := ⟨BwdIter.init, BwdIter.spaces, BwdIter.next⟩

/-- The loop of `comparator::operator()` (sorter_common.hpp:41-65), `n` iterations left; `voc` is `m_vocab->lookup`. -/
def compareLoop {σ : Type} (I : IterOps σ) (m : Mem) (voc : List Byte → Option Nat) : Nat → σ → σ → Option Bool
  | 0, _, _ => some false
  | n + 1, x, y =>
    (I.next m x).bind fun bx => (I.next m y).bind fun bY =>
    if bx.1.1 = bx.1.2 ∨ bY.1.1 = bY.1.2 then some false else
    (Bytes.equalBytes m bx.1 bY.1).bind fun eq =>
    if eq then compareLoop I m voc n bx.2 bY.2 else
    (voc (slice m bx.1)).bind fun ix => if ix = NF then some false else
    (voc (slice m bY.1)).bind fun iy => if iy = NF then some false else
    some (decide (ix < iy))

/-- `comparator::operator()` (sorter_common.hpp:36-66): both n-grams are in the memory `m`. -/
def compareGrams {σ : Type} (I : IterOps σ) (m : Mem) (voc : List Byte → Option Nat) (x y : ByteRange) : Option Bool :=
  compareLoop I m voc (I.spaces m (I.init x) + 1) (I.init x) (I.init y)

/-- `prefix_order_comparator` (sorter_common.hpp:73-74). -/
def prefixOrder (m : Mem) (voc : List Byte → Option Nat) (x y : ByteRange) : Option Bool := compareGrams fwdOps m voc x y
/-- `suffix_order_comparator` (sorter_common.hpp:76-77). -/
def suffixOrder (m : Mem) (voc : List Byte → Option Nat) (x y : ByteRange) : Option Bool := compareGrams bwdOps m voc x y

/-- Specification: a vocabulary look-up that gives distinct identifiers to the words of `U`. -/
structure Spec.Ids (voc : List Byte → Option Nat) (U : List (List Byte)) (id : List Byte → Nat) : Prop where
  ids : ∀ w ∈ U, voc w = some (id w) ∧ id w < NF
  inj : ∀ v ∈ U, ∀ w ∈ U, id v = id w → v = w

/-- Specification: the range holds the n-gram `ws` (non-empty words, single spaces). -/
structure Spec.Holds (m : Mem) (r : ByteRange) (ws : List (List Byte)) : Prop where
  at_ : At m r.1 (joinSp ws)
  end_ : r.2 = r.1 + (joinSp ws).length
  words : ∀ w ∈ ws, Spec.IsWord w ∧ w ≠ []
  nonempty : ws ≠ []

/-! ## Proofs -/

/-- The loop over iterators that deliver ranges of the words `xs`, `ys`. -/
theorem compareLoop_spec {σ : Type} (I : IterOps σ) (m : Mem) {voc : List Byte → Option Nat} {U : List (List Byte)} {id : List Byte → Nat}
    (hU : Spec.Ids voc U id) (take : Nat → σ → Option (List ByteRange × σ))
    (htake : ∀ n s, take (n + 1) s = (I.next m s).bind fun x => (take n x.2).map fun y => (x.1 :: y.1, y.2))
    (rx ry : List ByteRange) (hl : rx.length = ry.length)
    (hx : ∀ r ∈ rx, r.2 ≤ m.length ∧ slice m r ≠ [] ∧ slice m r ∈ U) (hy : ∀ r ∈ ry, r.2 ≤ m.length ∧ slice m r ≠ [] ∧ slice m r ∈ U) :
    ∀ (x y : σ) (x' y' : σ), take rx.length x = some (rx, x') → take ry.length y = some (ry, y') →
    compareLoop I m voc rx.length x y = some (decide ((rx.map fun r => id (slice m r)) < (ry.map fun r => id (slice m r)))) := by
  have hlen : ∀ r : ByteRange, r.2 ≤ m.length → (slice m r).length = r.2 - r.1 := by
    intro r h
    unfold slice
    rw [List.length_take, List.length_drop]; omega
  induction rx generalizing ry with
  | nil =>
    intro x y x' y' _ _
    rw [List.length_nil] at hl
    rw [List.length_eq_zero_iff.1 hl.symm]
    simp [compareLoop]
  | cons a rx ih =>
    obtain ⟨b, ry, rfl⟩ : ∃ b l, ry = b :: l := by
      cases ry with
      | nil => simp at hl
      | cons b l => exact ⟨b, l, rfl⟩
    intro x y x' y' h1 h2
    rw [List.length_cons, htake] at h1 h2
    obtain ⟨⟨a', s1⟩, g1, h1⟩ := Option.bind_eq_some_iff.1 h1
    obtain ⟨⟨b', s2⟩, g2, h2⟩ := Option.bind_eq_some_iff.1 h2
    obtain ⟨⟨l1, s1'⟩, g3, h1⟩ := Option.map_eq_some_iff.1 h1
    obtain ⟨⟨l2, s2'⟩, g4, h2⟩ := Option.map_eq_some_iff.1 h2
    simp only [Prod.mk.injEq, List.cons.injEq] at h1 h2
    obtain ⟨⟨rfl, rfl⟩, rfl⟩ := h1
    obtain ⟨⟨rfl, rfl⟩, rfl⟩ := h2
    rw [List.length_cons, compareLoop, g1, Option.bind_some, g2, Option.bind_some]
    obtain ⟨ha1, ha2, ha3⟩ := hx a' List.mem_cons_self
    obtain ⟨hb1, hb2, hb3⟩ := hy b' List.mem_cons_self
    have hla := hlen a' ha1
    have hlb := hlen b' hb1
    have hpa := List.length_pos_iff.2 ha2
    have hpb := List.length_pos_iff.2 hb2
    show (if a'.1 = a'.2 ∨ b'.1 = b'.2 then some false else _) = _
    rw [if_neg (by omega)]
    have heq : Bytes.equalBytes m a' b' = some (decide (slice m a' = slice m b')) := by
      unfold Bytes.equalBytes
      by_cases hc : a'.2 - a'.1 = b'.2 - b'.1
      · rw [if_pos hc, if_pos ⟨ha1, hb1⟩]
        congr 1
        by_cases h : slice m a' = slice m b' <;> simp [h]
      · rw [if_neg hc, decide_eq_false (fun h => hc (by rw [← hla, ← hlb, h]))]
    rw [heq, Option.bind_some, List.map_cons, List.map_cons]
    by_cases hs : slice m a' = slice m b'
    · rw [decide_eq_true hs, if_pos rfl, ih l2 (by simpa using hl) (fun r hr => hx r (List.mem_cons_of_mem _ hr))
        (fun r hr => hy r (List.mem_cons_of_mem _ hr)) s1 s2 s1' s2' g3 g4, hs]
      congr 1
      simp only [List.cons_lt_cons_iff, lt_irrefl, true_and, false_or]
    · rw [decide_eq_false hs, if_neg (by simp)]
      obtain ⟨v1, v2⟩ := hU.ids _ ha3
      obtain ⟨w1, w2⟩ := hU.ids _ hb3
      show ((voc (slice m a')).bind _) = _
      rw [v1, Option.bind_some, if_neg (by omega)]
      show ((voc (slice m b')).bind _) = _
      rw [w1, Option.bind_some, if_neg (by omega)]
      have hne : id (slice m a') ≠ id (slice m b') := fun e => hs (hU.inj _ ha3 _ hb3 e)
      congr 1
      simp only [List.cons_lt_cons_iff, hne, false_and, or_false]

theorem wordRanges_mem {m : Mem} {off : Nat} {ws : List (List Byte)} (hat : At m off (joinSp ws)) (hw : ∀ w ∈ ws, w ≠ []) :
    ∀ r ∈ wordRanges off ws, r.2 ≤ m.length ∧ slice m r ≠ [] ∧ slice m r ∈ ws := by
  intro r hr
  have hm : slice m r ∈ ws := by
    have := List.mem_map_of_mem (f := slice m) hr
    rwa [slices_wordRanges hat] at this
  have hne := hw _ hm
  refine ⟨?_, hne, hm⟩
  obtain ⟨k, hk⟩ := List.mem_iff_getElem?.1 hr
  obtain ⟨as, w, bs, rfl, -, rfl⟩ := wordRanges_get hk
  rw [joinSp_eq_flatMap, List.append_assoc, At.append, At.append] at hat
  exact hat.2.1.le (by exact hw w (by simp))

/-- **C33** (prefix order).  On n-grams of the same order, all words in the vocabulary, the prefix-order comparator is the lexicographic order of the
identifiers of the words, first word first. -/
theorem C33_prefix_order {m : Mem} {voc : List Byte → Option Nat} {U : List (List Byte)} {id : List Byte → Nat} (hU : Spec.Ids voc U id)
    {x y : ByteRange} {xs ys : List (List Byte)} (hx : Spec.Holds m x xs) (hy : Spec.Holds m y ys) (hl : xs.length = ys.length)
    (hxU : ∀ w ∈ xs, w ∈ U) (hyU : ∀ w ∈ ys, w ∈ U) :
    prefixOrder m voc x y = some (decide (xs.map id < ys.map id)) := by
  obtain ⟨x1, rfl⟩ : ∃ x1, x = (x1, x1 + (joinSp xs).length) := ⟨x.1, Prod.ext rfl hx.end_⟩
  obtain ⟨y1, rfl⟩ : ∃ y1, y = (y1, y1 + (joinSp ys).length) := ⟨y.1, Prod.ext rfl hy.end_⟩
  obtain ⟨hxa, -, hxw, hxn⟩ := hx
  obtain ⟨hya, -, hyw, hyn⟩ := hy
  obtain ⟨s1, ⟨ix, rx, t1, t2, t3⟩, -⟩ := C31_forward_iterator hxa (fun w h => (hxw w h).1) hxn
  obtain ⟨-, ⟨iy, ry, u1, u2, u3⟩, -⟩ := C31_forward_iterator hya (fun w h => (hyw w h).1) hyn
  have hrx : rx.length = xs.length := by rw [t3, wordRanges_length]
  have hry : ry.length = ys.length := by rw [u3, wordRanges_length]
  have := compareLoop_spec fwdOps m hU (FwdIter.take m) (fun _ _ => rfl) rx ry (by omega)
    (fun r hr => by
      obtain ⟨h1, h2, h3⟩ := wordRanges_mem hxa (fun w h => (hxw w h).2) r (t3 ▸ hr)
      exact ⟨h1, h2, hxU _ h3⟩)
    (fun r hr => by
      obtain ⟨h1, h2, h3⟩ := wordRanges_mem hya (fun w h => (hyw w h).2) r (u3 ▸ hr)
      exact ⟨h1, h2, hyU _ h3⟩) _ _ ix iy (by rw [hrx]; exact t1) (by rw [hry]; exact u1)
  have e1 : (rx.map fun r => id (slice m r)) = xs.map id := by rw [← t2, List.map_map]; rfl
  have e2 : (ry.map fun r => id (slice m r)) = ys.map id := by rw [← u2, List.map_map]; rfl
  rw [e1, e2] at this
  unfold prefixOrder compareGrams
  rw [show fwdOps.spaces m (fwdOps.init (x1, x1 + (joinSp xs).length)) + 1 = rx.length by rw [hrx]; exact s1]
  exact this

/-- **C33** (suffix order).  On n-grams of the same order, all words in the vocabulary, the suffix-order comparator is the lexicographic order of the
identifiers of the words, last word first. -/
theorem C33_suffix_order {m : Mem} {voc : List Byte → Option Nat} {U : List (List Byte)} {id : List Byte → Nat} (hU : Spec.Ids voc U id)
    {x y : ByteRange} {xs ys : List (List Byte)} (hx : Spec.Holds m x xs) (hy : Spec.Holds m y ys) (hl : xs.length = ys.length)
    (hxU : ∀ w ∈ xs, w ∈ U) (hyU : ∀ w ∈ ys, w ∈ U) :
    suffixOrder m voc x y = some (decide ((xs.map id).reverse < (ys.map id).reverse)) := by
  obtain ⟨x1, rfl⟩ : ∃ x1, x = (x1, x1 + (joinSp xs).length) := ⟨x.1, Prod.ext rfl hx.end_⟩
  obtain ⟨y1, rfl⟩ : ∃ y1, y = (y1, y1 + (joinSp ys).length) := ⟨y.1, Prod.ext rfl hy.end_⟩
  obtain ⟨hxa, -, hxw, hxn⟩ := hx
  obtain ⟨hya, -, hyw, hyn⟩ := hy
  obtain ⟨s1, ix, rx, t1, t2, t3⟩ := C31_backward_iterator hxa hxw hxn
  obtain ⟨-, iy, ry, u1, u2, u3⟩ := C31_backward_iterator hya hyw hyn
  have hrx : rx.length = xs.length := by rw [t3, List.length_reverse, wordRanges_length]
  have hry : ry.length = ys.length := by rw [u3, List.length_reverse, wordRanges_length]
  have := compareLoop_spec bwdOps m hU (BwdIter.take m) (fun _ _ => rfl) rx ry (by omega)
    (fun r hr => by
      obtain ⟨h1, h2, h3⟩ := wordRanges_mem hxa (fun w h => (hxw w h).2) r (by rw [t3, List.mem_reverse] at hr; exact hr)
      exact ⟨h1, h2, hxU _ h3⟩)
    (fun r hr => by
      obtain ⟨h1, h2, h3⟩ := wordRanges_mem hya (fun w h => (hyw w h).2) r (by rw [u3, List.mem_reverse] at hr; exact hr)
      exact ⟨h1, h2, hyU _ h3⟩) _ _ ix iy (by rw [hrx]; exact t1) (by rw [hry]; exact u1)
  have e1 : (rx.map fun r => id (slice m r)) = (xs.map id).reverse := by rw [← List.map_reverse, ← t2, List.map_map]; rfl
  have e2 : (ry.map fun r => id (slice m r)) = (ys.map id).reverse := by rw [← List.map_reverse, ← u2, List.map_map]; rfl
  rw [e1, e2] at this
  unfold suffixOrder compareGrams
  rw [show bwdOps.spaces m (bwdOps.init (x1, x1 + (joinSp xs).length)) + 1 = rx.length by rw [hrx]; exact s1]
  exact this

/-- Specification: on the ranges satisfying `P` a comparator is a strict total order of the n-grams they hold: always defined, irreflexive, transitive, and two
n-grams neither of which is before the other have the same words. -/
structure Spec.StrictOrder (m : Mem) (lt : ByteRange → ByteRange → Option Bool) (P : ByteRange → Prop) : Prop where
  defined : ∀ x y, P x → P y → ∃ b, lt x y = some b
  irrefl : ∀ x, P x → lt x x = some false
  trans : ∀ x y z, P x → P y → P z → lt x y = some true → lt y z = some true → lt x z = some true
  total : ∀ x y, P x → P y → lt x y = some false → lt y x = some false → slice m x = slice m y

theorem map_id_inj {voc : List Byte → Option Nat} {U : List (List Byte)} {id : List Byte → Nat} (hU : Spec.Ids voc U id) :
    ∀ {xs ys : List (List Byte)}, (∀ w ∈ xs, w ∈ U) → (∀ w ∈ ys, w ∈ U) → xs.map id = ys.map id → xs = ys := by
  intro xs
  induction xs with
  | nil => intro ys _ _ h; cases ys with
    | nil => rfl
    | cons _ _ => simp at h
  | cons x xs ih =>
    intro ys h1 h2 h
    cases ys with
    | nil => simp at h
    | cons y ys =>
      simp only [List.map_cons, List.cons.injEq] at h
      rw [hU.inj x (h1 x (by simp)) y (h2 y (by simp)) h.1, ih (fun w hw => h1 w (by simp [hw])) (fun w hw => h2 w (by simp [hw])) h.2]

/-- **C33** (strict orders).  On the n-grams of `n` words of the vocabulary both comparators are strict total orders, as std::sort and merging require. -/
theorem C33_strict_orders {m : Mem} {voc : List Byte → Option Nat} {U : List (List Byte)} {id : List Byte → Nat} (hU : Spec.Ids voc U id) (n : Nat) :
    let P := fun r => ∃ ws, Spec.Holds m r ws ∧ ws.length = n ∧ ∀ w ∈ ws, w ∈ U
    Spec.StrictOrder m (prefixOrder m voc) P ∧ Spec.StrictOrder m (suffixOrder m voc) P := by
  intro P
  have hslice : ∀ {r ws}, Spec.Holds m r ws → slice m r = joinSp ws := by
    intro r ws h
    rw [show r = (r.1, r.1 + (joinSp ws).length) from Prod.ext rfl h.end_]
    exact h.at_.slice_eq
  constructor
  · refine ⟨?_, ?_, ?_, ?_⟩
    · rintro x y ⟨xs, hx, hxl, hxU⟩ ⟨ys, hy, hyl, hyU⟩
      exact ⟨_, C33_prefix_order hU hx hy (by omega) hxU hyU⟩
    · rintro x ⟨xs, hx, hxl, hxU⟩
      rw [C33_prefix_order hU hx hx rfl hxU hxU, decide_eq_false (lt_irrefl _)]
    · rintro x y z ⟨xs, hx, hxl, hxU⟩ ⟨ys, hy, hyl, hyU⟩ ⟨zs, hz, hzl, hzU⟩
      rw [C33_prefix_order hU hx hy (by omega) hxU hyU, C33_prefix_order hU hy hz (by omega) hyU hzU, C33_prefix_order hU hx hz (by omega) hxU hzU]
      simp only [Option.some.injEq, decide_eq_true_eq]
      exact lt_trans
    · rintro x y ⟨xs, hx, hxl, hxU⟩ ⟨ys, hy, hyl, hyU⟩
      rw [C33_prefix_order hU hx hy (by omega) hxU hyU, C33_prefix_order hU hy hx (by omega) hyU hxU]
      simp only [Option.some.injEq, decide_eq_false_iff_not]
      intro h1 h2
      rw [hslice hx, hslice hy, map_id_inj hU hxU hyU (le_antisymm (not_lt.1 h2) (not_lt.1 h1))]
  · refine ⟨?_, ?_, ?_, ?_⟩
    · rintro x y ⟨xs, hx, hxl, hxU⟩ ⟨ys, hy, hyl, hyU⟩
      exact ⟨_, C33_suffix_order hU hx hy (by omega) hxU hyU⟩
    · rintro x ⟨xs, hx, hxl, hxU⟩
      rw [C33_suffix_order hU hx hx rfl hxU hxU, decide_eq_false (lt_irrefl _)]
    · rintro x y z ⟨xs, hx, hxl, hxU⟩ ⟨ys, hy, hyl, hyU⟩ ⟨zs, hz, hzl, hzU⟩
      rw [C33_suffix_order hU hx hy (by omega) hxU hyU, C33_suffix_order hU hy hz (by omega) hyU hzU, C33_suffix_order hU hx hz (by omega) hxU hzU]
      simp only [Option.some.injEq, decide_eq_true_eq]
      exact lt_trans
    · rintro x y ⟨xs, hx, hxl, hxU⟩ ⟨ys, hy, hyl, hyU⟩
      rw [C33_suffix_order hU hx hy (by omega) hxU hyU, C33_suffix_order hU hy hx (by omega) hyU hxU]
      simp only [Option.some.injEq, decide_eq_false_iff_not]
      intro h1 h2
      rw [hslice hx, hslice hy, map_id_inj hU hxU hyU (List.reverse_inj.1 (le_antisymm (not_lt.1 h2) (not_lt.1 h1)))]

namespace ComparatorExample

/-- A vocabulary: "b" has identifier 0, "a" identifier 1; nothing else is known. -/
def voc (w : List Byte) : Option Nat := if w = [98#8] then some 0 else if w = [97#8] then some 1 else some NF

theorem ids : Spec.Ids voc [[97#8], [98#8]] (fun w => if w = [98#8] then 0 else 1) where
  ids := by intro w hw; simp at hw; rcases hw with rfl | rfl <;> simp [voc, NF]
  inj := by intro v hv w hw; simp at hv hw; rcases hv with rfl | rfl <;> rcases hw with rfl | rfl <;> simp

/-- "a b" and "b b" and "a z" -/
def mem : Mem := joinSp [[97#8], [98#8], [98#8], [98#8], [97#8], [122#8]]

/-- The hypotheses of C33 are met: "b b" is before "a b" (0 before 1), and not conversely. -/
example : prefixOrder mem voc (4, 7) (0, 3) = some true ∧ prefixOrder mem voc (0, 3) (4, 7) = some false := by
  have h1 : Spec.Holds mem (0, 3) [[97#8], [98#8]] := ⟨⟨mem.drop 3, by decide⟩, rfl, by intro w hw; simp at hw; rcases hw with rfl | rfl <;> simp [Spec.IsWord, sp, nl], by simp⟩
  have h2 : Spec.Holds mem (4, 7) [[98#8], [98#8]] := ⟨⟨mem.drop 7, by decide⟩, rfl, by intro w hw; simp at hw; subst hw; simp [Spec.IsWord, sp, nl], by simp⟩
  rw [C33_prefix_order ids h2 h1 rfl (by simp) (by simp), C33_prefix_order ids h1 h2 rfl (by simp) (by simp)]
  decide +kernel

end ComparatorExample

open ComparatorExample in
/-- C33, defect: with a word outside the vocabulary the comparator is not a strict weak order (incomparability is not transitive), which std::sort requires:
"z" is neither before nor after "b" and "a", but "b" is before "a". -/
theorem C33_unknown_word_defect :
    prefixOrder mem voc (10, 11) (0, 1) = some false ∧ prefixOrder mem voc (0, 1) (10, 11) = some false ∧
    prefixOrder mem voc (10, 11) (2, 3) = some false ∧ prefixOrder mem voc (2, 3) (10, 11) = some false ∧
    prefixOrder mem voc (2, 3) (0, 1) = some true := by
  decide +kernel

end Tongrams
