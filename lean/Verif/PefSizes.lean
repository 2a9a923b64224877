import Verif.PefStats
import Verif.Sizes
import Verif.CheckModel

/-!
# The numbers of bytes printed for a trie whose sequences change their state

`print_stats` (`include/utils/stats.cpp`) on tries over `uniform_pef_sequence` grams, and over `fast_ef_sequence` grams with rank
sequences that queries change.
-/

set_option linter.unusedSectionVars false

namespace Tongrams

/-! ## Model -/

namespace Sizes

/-- The numbers that `print_stats` takes from one array, stats.cpp:312-315, 388-390. -/
structure ArrayBytes where
  size : Nat
  grams : Nat
  ranks : Nat
  ptrs : Nat

section
variable {F : Type} [Mul F] [Div F] [NatCast F]

/-- The loop of stats.cpp:310-336 for a count trie; `i` is its counter. -/
def countLevelsOf (order : Nat) : Nat → List ArrayBytes → List (TrieLevel F)
  | _, [] => []
  | i, a :: as =>
    { grams := if i ≠ 1 then some (a.grams, (a.grams : F) / (a.size : F)) else none
      ranks := (a.ranks, (a.ranks : F) / (a.size : F))
      ptrs := if i ≠ order then some (a.ptrs, (a.ptrs : F) / (a.size : F)) else none } :: countLevelsOf order (i + 1) as

end

/-- How the bytes of grams are counted; `none`: not built. -/
structure GramsMeasure (G : GramsSt) where
  bytes : Option G.S → Nat
  /-- the hash function, about which nothing is printed -/
  function : Option G.S → Nat

/-- `uniform_pef_sequence::bytes`, uniform_pef_sequence.hpp:486-490; there are no hash functions. -/
def GramsMeasure.pef (junkU junkD : Nat → List W) : GramsMeasure (GramsSt.pef junkU junkD) where
  bytes o := ((o.map PefObj.seq).getD PEF.empty).bytes
  function _ := 0

/-- `fast_ef_sequence::bytes`, fast_ef_sequence.hpp:217-224; `mphf`'s own bytes are not counted. -/
def GramsMeasure.fastEF (hr : Nat → Mphf Nat 64) (c : Emphf Nat 64) (ju : UTable Nat 64) : GramsMeasure (GramsData.fastEF hr c ju).st where
  bytes (o : Option FastEF) := FastEF.bytes (o.getD ⟨⟨0, 0, ⟨0, []⟩, DArray.empty, ⟨0, []⟩⟩, none, []⟩)
  function (o : Option FastEF) := match o.bind FastEF.offsets with
    | some t => Spec.hashFunctionBytes c t.h
    | none => 0

/-- How the bytes of ranks that queries do not change are counted. -/
def ranksOf {R : RanksData} (rb : RankBytes R) (mem : Nat → List W) : Option (R.st mem).T → Nat
  | some r => rb.bytes r.2
  | none => rb.empty

/-- `prefix_summed_sequence<uniform_pef_sequence>::bytes`, prefix_summed_sequence.hpp:33-35. -/
def pspefBytes (swap : Bool) (junkU junkD : Nat → List W) (o : Option (RanksSt.pspef swap junkU junkD).T) : Nat :=
  8 + ((o.map PefObj.seq).getD PEF.empty).bytes

/-- The rank sequences of count tries. -/
def pefRanks (junkU junkD : Nat → List W) : (pr : PefRanks) → Option (pr.stored junkU junkD).T → Nat
  | .ic => ranksOf RankBytes.ic junkU
  | .psef => ranksOf RankBytes.psef junkU
  | .pspef s => pspefBytes s junkU junkD

/-- `grams_bytes`, `counts_ranks_bytes` or `probs_backoffs_ranks_bytes`, `pointers_bytes` and `size` of an array, sorted_array.hpp:172-186. -/
def arrayBytes {G : GramsSt} {R : RanksSt} (gb : Option G.S → Nat) (rb : Option R.T → Nat) (a : StArray G R) : ArrayBytes :=
  ⟨a.size, gb a.grams, rb a.ranks, (a.ptrs.getD ⟨0, 0, ⟨0, []⟩, DArray.empty, ⟨0, []⟩⟩).bytes⟩

end Sizes

/-- `trie_count_lm::print_stats`, the numbers of bytes, stats.cpp:301-359; see `TrieCountStore.printSizes`. -/
def StCount.printSizes {K F : Type} [Mul F] [Div F] [NatCast F] {G : GramsSt} {R : RanksSt} (gb : Option G.S → Nat) (rb : Option R.T → Nat)
    (s : StCount K G R) (bytes : Nat) : Sizes.TriePrinted F :=
  let parts := s.arrs.map (Sizes.arrayBytes gb rb)
  let num : Nat := (parts.map (·.size)).sum % 2 ^ 64
  { levels := Sizes.countLevelsOf s.order 1 parts, total := bytes, perGram := (bytes : F) / (num : F)
    vocab := s.voc.dataBytes, values := countsBytes s.counts
    grams := Sizes.share bytes num ((parts.map (·.grams)).sum)
    ranks := Sizes.share bytes num ((parts.map (·.ranks)).sum)
    ptrs := Sizes.share bytes num ((parts.map (·.ptrs)).sum) }

/-- `trie_prob_lm::print_stats`, the numbers of bytes, stats.cpp:377-423; see `TrieProbStore.printSizes`. -/
def StProb.printSizes {K P F : Type} [Mul F] [Div F] [NatCast F] {G : GramsSt} {R : RanksSt} (gb : Option G.S → Nat) (rb : Option R.T → Nat)
    (s : StProb K P G R) (bytes : Nat) : Sizes.ProbPrinted F :=
  let parts := s.arrs.map (Sizes.arrayBytes gb rb)
  let num : Nat := (parts.map (·.size)).sum % 2 ^ 64
  { levels := parts.map fun a => (a.grams, a.ranks, a.ptrs), total := bytes
    perGram := (bytes : F) / (num : F), vocab := s.voc.dataBytes, probs := quantizedBytes s.ps, backoffs := quantizedBytes s.bs
    grams := Sizes.share bytes num ((parts.map (·.grams)).sum)
    ranks := Sizes.share bytes num ((parts.map (·.ranks)).sum)
    ptrs := Sizes.share bytes num ((parts.map (·.ptrs)).sum) }

/-! ## Specification -/

/-- The parts of the file of a trie: what is written for the order at position `k`, and the vocabulary. -/
structure Spec.FileParts where
  grams : Nat → List Byte
  ranks : Nat → List Byte
  ptrs : Nat → List Byte
  vocab : List Byte

/-- The numbers of bytes printed for the order at position `k`, against the parts of the file: the grams (`function k` bytes of a hash function,
about which nothing is printed, and the lengths of `vg` vectors, of 8 bytes each; no grams are written for the first order), the ranks (with the
lengths of `vr` vectors; written if `wr`), and the pointers (with the lengths of 2 vectors). -/
def Spec.FileParts.Order (q : Spec.FileParts) (vg vr : Nat) (function : Nat → Nat) (k : Nat) (wr : Bool) (grams ranks ptrs : Nat) : Prop :=
  (k ≠ 0 → (q.grams k).length = grams + function k + 8 * vg) ∧ (wr = true → (q.ranks k).length = ranks + 8 * vr) ∧
    (q.ptrs k).length = ptrs + 8 * 2

/-- What `print_stats` prints for a count trie with `sizes` n-grams of each order and a file of `n` bytes.  Each number is that of a part of the
file (grams are not printed for the first order, pointers not for the last); and the numbers account for every byte of the file: vocabulary
data, distinct values, the three totals, the hash functions, three one-byte numbers and the numbers of 8 bytes.  The total of the grams also counts
`phantom` bytes for the grams of the first order, which do not exist in the file. -/
structure Spec.CountSizes {F : Type} [Mul F] [Div F] [NatCast F] (q : Spec.FileParts) (values : List Byte) (vg vr phantom vocFunction : Nat)
    (function : Nat → Nat) (sizes : List Nat) (n : Nat) (p : Sizes.TriePrinted F) : Prop where
  total : p.total = n
  orders : p.levels.length = sizes.length
  level : ∀ k m : Nat, sizes[k]? = some m → ∃ grams ranks ptrs, q.Order vg vr function k true grams ranks ptrs ∧
    p.levels[k]? = some { grams := if k = 0 then none else some (grams, (grams : F) / (m : F))
                          ranks := (ranks, (ranks : F) / (m : F))
                          ptrs := if k + 1 = sizes.length then none else some (ptrs, (ptrs : F) / (m : F)) }
  vocab : q.vocab.length = p.vocab + vocFunction + 8
  values : values.length = p.values + 8 * sizes.length
  grams : p.grams.bytes = (p.levels.map fun l => (l.grams.map Prod.fst).getD 0).sum + phantom
  ranks : p.ranks.bytes = (p.levels.map (·.ranks.1)).sum
  ptrs : p.ptrs.bytes + 8 * 2 = (p.levels.map fun l => (l.ptrs.map Prod.fst).getD 0).sum + (q.ptrs (sizes.length - 1)).length
  shares : Spec.ShareOf n sizes.sum p.grams ∧ Spec.ShareOf n sizes.sum p.ranks ∧ Spec.ShareOf n sizes.sum p.ptrs ∧
    p.perGram = (n : F) / (sizes.sum : F)
  account : n + phantom = p.vocab + p.values + p.grams.bytes + p.ranks.bytes + p.ptrs.bytes + vocFunction +
    ((List.range sizes.length).map function).sum + 3 + 8 * (sizes.length + 1 + sizes.length + vg * (sizes.length - 1) + vr * sizes.length + 2 * sizes.length)

/-- The same for a backoff trie: two collections of values; the ranks of the first order (the probabilities of words are in the vocabulary) do
not exist in the file but are counted as `phantomR` bytes. -/
structure Spec.BackoffSizes {F : Type} [Mul F] [Div F] [NatCast F] (q : Spec.FileParts) (probs backoffs : List Byte) (vg vr phantom phantomR vocFunction : Nat)
    (function : Nat → Nat) (sizes : List Nat) (n : Nat) (p : Sizes.ProbPrinted F) : Prop where
  total : p.total = n
  orders : p.levels.length = sizes.length
  level : ∀ k : Nat, k < sizes.length → ∃ grams ranks ptrs, q.Order vg vr function k (decide (k ≠ 0)) grams ranks ptrs ∧
    p.levels[k]? = some (grams, ranks, ptrs) ∧ (k = 0 → grams = phantom ∧ ranks = phantomR)
  vocab : q.vocab.length = p.vocab + vocFunction + 8
  probs : probs.length = p.probs + 8 * (sizes.length - 1)
  backoffs : backoffs.length = p.backoffs + 8 * (sizes.length - 2)
  grams : p.grams.bytes = (p.levels.map (·.1)).sum
  ranks : p.ranks.bytes = (p.levels.map (·.2.1)).sum
  ptrs : p.ptrs.bytes = (p.levels.map (·.2.2)).sum
  shares : Spec.ShareOf n sizes.sum p.grams ∧ Spec.ShareOf n sizes.sum p.ranks ∧ Spec.ShareOf n sizes.sum p.ptrs ∧
    p.perGram = (n : F) / (sizes.sum : F)
  account : n + phantom + phantomR = p.vocab + p.probs + p.backoffs + p.grams.bytes + p.ranks.bytes + p.ptrs.bytes + vocFunction +
    ((List.range sizes.length).map function).sum + 3 + 4 +
    8 * (sizes.length + 1 + (sizes.length - 1) + (sizes.length - 2) + vg * (sizes.length - 1) + vr * (sizes.length - 1) + 2 * sizes.length)

/-- The parts that a trie writes. -/
def StArray.parts {G : GramsSt} {R : RanksSt} (F : GramsFile G) (Fr : RanksFile R) (jp : EF) (vocab : List Byte) (arrs : List (StArray G R)) : Spec.FileParts where
  grams k := F.save (arrs[k]?.bind (·.grams))
  ranks k := Fr.save (arrs[k]?.bind (·.ranks))
  ptrs k := ((arrs[k]?.bind (·.ptrs)).getD jp).save
  vocab := vocab

/-! ## Proofs -/

namespace PefSizes
open Sizes

/-- What is printed for loaded grams is what they take in a file. -/
def _root_.Tongrams.Sizes.GramsMeasure.Exact {G : GramsSt} (M : GramsMeasure G) (F : GramsFile G) (vg : Nat) : Prop :=
  ∀ ord bs o, Spec.Reads (F.load ord) bs o → (F.save o).length = M.bytes o + M.function o + 8 * vg

/-- The same for ranks. -/
def RanksExact {R : RanksSt} (rb : Option R.T → Nat) (F : RanksFile R) (vr : Nat) : Prop :=
  ∀ ord bs o, Spec.Reads (F.load ord) bs o → (F.save o).length = rb o + 8 * vr

theorem pef_exact (junkU junkD : Nat → List W) : (GramsMeasure.pef junkU junkD).Exact (GramsFile.pef junkU junkD) 2 := fun _ _ _ _ => pef_length _

theorem fastEF_exact {hr : Nat → Mphf Nat 64} {c : Emphf Nat 64} {ju : UTable Nat 64} {jg : FastEF} :
    (GramsMeasure.fastEF hr c ju).Exact (GramsFile.data (GramsData.fastEF hr c ju) jg) 4 := by
  intro ord bs o h
  have h0 := h []
  obtain ⟨⟨d, rest⟩, e, h0⟩ := Option.bind_eq_some_iff.1 (show ((FastEF.load c) (bs ++ [])).bind _ = _ from h0)
  cases h0
  unfold FastEF.load at e
  obtain ⟨_, -, e⟩ := Option.bind_eq_some_iff.1 e
  obtain ⟨⟨t, _⟩, -, e⟩ := Option.bind_eq_some_iff.1 e
  obtain ⟨_, -, e⟩ := Option.bind_eq_some_iff.1 e
  obtain ⟨_, -, e⟩ := Option.bind_eq_some_iff.1 e
  obtain ⟨_, -, e⟩ := Option.bind_eq_some_iff.1 e
  obtain ⟨_, -, e⟩ := Option.bind_eq_some_iff.1 e
  obtain ⟨_, -, e⟩ := Option.bind_eq_some_iff.1 e
  obtain ⟨e, -⟩ := Prod.mk.inj (Option.some.inj e)
  subst e
  exact (fastEF_length c ju _).trans (Nat.add_right_comm _ _ _)

theorem data_exact {R : RanksData} {rb : RankBytes R} {v : Nat} (hv : rb.Exact v) (mem : Nat → List W) (junk : R.E) :
    RanksExact (ranksOf rb mem) (RanksFile.data R mem junk) v := by
  intro ord bs o h
  obtain ⟨⟨d, rest⟩, -, h0⟩ := Option.bind_eq_some_iff.1 (show (R.load (bs ++ [])).bind _ = _ from h [])
  cases h0
  exact hv d

theorem pefRanks_exact (junkU junkD : Nat → List W) (ji : ICSeq) (je : EF) : (pr : PefRanks) →
    RanksExact (pefRanks junkU junkD pr) (pr.file junkU junkD ji je) 2
  | .ic => data_exact exact_ic _ _
  | .psef => data_exact exact_psef _ _
  | .pspef s => fun ord bs o _ => by
    show (putU 8 _ ++ PEF.save _).length = 8 + PEF.bytes _ + 8 * 2
    rw [List.length_append, length_putU, pef_length]
    omega

section
variable {G G' : GramsSt} {R R' : RanksSt} {F : GramsFile G} {F' : GramsFile G'} {Fr : RanksFile R} {Fr' : RanksFile R'} {jp : EF} {fr : Bool}
variable {M : GramsMeasure G'} {rb : Option R'.T → Nat} {vg vr : Nat}

/-- The bytes of one array. -/
theorem array_length (hM : M.Exact F' vg) (hr : RanksExact rb Fr' vr) {i : Nat} {b : StArray G R} {b' : StArray G' R'} (h : b.Loaded F F' Fr Fr' jp fr i b') :
    (i ≠ 0 → (F.save b.grams).length = M.bytes b'.grams + M.function b'.grams + 8 * vg) ∧
    (i ≠ 0 ∨ fr = true → (Fr.save b.ranks).length = rb b'.ranks + 8 * vr) ∧
    (b.ptrs.getD jp).save.length = (arrayBytes M.bytes rb b').ptrs + 16 := by
  refine ⟨fun hi => ?_, fun hi => ?_, ?_⟩
  · rw [← h.again hi]; exact hM _ _ _ (h.grams hi)
  · rw [← h.ranks hi]; exact hr _ _ _ (h.ranksRead hi)
  · unfold arrayBytes
    rw [h.ptrs]
    exact ef_length _

theorem saveFrom_length (hM : M.Exact F' vg) (hr : RanksExact rb Fr' vr) : ∀ (B : List (StArray G R)) (B' : List (StArray G' R')) (k : Nat), 1 ≤ k →
    ArrLoaded F F' Fr Fr' jp fr k B B' →
    (StArray.saveFrom F Fr jp (k + 1) B).length = (B'.map fun b => M.bytes b.grams).sum + (B'.map fun b => M.function b.grams).sum +
      (B'.map fun b => rb b.ranks).sum + (B'.map fun b => (arrayBytes M.bytes rb b).ptrs).sum + 8 * (B.length + vg * B.length + vr * B.length + 2 * B.length)
  | [], [], _, _, _ => rfl
  | [], _ :: _, _, _, h => absurd h.1 (by simp)
  | _ :: _, [], _, _, h => absurd h.1 (by simp)
  | b :: B, b' :: B', k, hk, h => by
    have h0 := h.2 0 b b' rfl rfl
    have ih := saveFrom_length hM hr B B' (k + 1) (by omega) ⟨by simpa using h.1, fun i x y hx hy => by
      have := h.2 (i + 1) x y hx hy
      rwa [show k + (i + 1) = k + 1 + i by omega] at this⟩
    obtain ⟨h1, h2, h3⟩ := array_length hM hr h0
    replace h1 := h1 (by omega)
    replace h2 := h2 (.inl (by omega))
    rw [StArray.saveFrom, List.length_append, ih]
    unfold StArray.save
    rw [if_pos (by omega), if_pos rfl]
    simp only [List.length_append, length_putU, List.map_cons, List.sum_cons, List.length_cons, Nat.mul_add, Nat.mul_one]
    omega

theorem saveAll_length (hM : M.Exact F' vg) (hr : RanksExact rb Fr' vr) {B : List (StArray G R)} {B' : List (StArray G' R')} (hne : B ≠ [])
    (hM0 : M.function none = 0) (h : ArrLoaded F F' Fr Fr' jp fr 0 B B') :
    (StArray.saveAll F Fr jp fr B).length + M.bytes none + (if fr then 0 else rb none) =
      (B'.map fun b => M.bytes b.grams).sum + (B'.map fun b => M.function b.grams).sum +
      (B'.map fun b => rb b.ranks).sum + (B'.map fun b => (arrayBytes M.bytes rb b).ptrs).sum +
      8 * (B.length + vg * (B.length - 1) + vr * (if fr then B.length else B.length - 1) + 2 * B.length) := by
  match B, B', h, hne with
  | [], _, _, hne => exact absurd rfl hne
  | _ :: _, [], h, _ => exact absurd h.1 (by simp)
  | b :: B, b' :: B', h, _ =>
    have h0 := h.2 0 b b' rfl rfl
    have ih := saveFrom_length (jp := jp) (fr := fr) hM hr B B' 1 (by omega) ⟨by simpa using h.1, fun i x y hx hy => by
      have := h.2 (i + 1) x y hx hy
      rwa [show 0 + (i + 1) = 1 + i by omega] at this⟩
    obtain ⟨-, h2, h3⟩ := array_length hM hr h0
    rw [StArray.saveAll, List.length_append, ih]
    unfold StArray.save
    have hg := h0.first rfl
    cases hf : fr with
    | true =>
      replace h2 := h2 (.inr hf)
      simp only [if_neg (by omega : ¬ 1 ≠ 1), if_true, List.length_append, length_putU, List.map_cons, List.sum_cons, List.length_cons, Nat.add_sub_cancel,
        Nat.mul_add, Nat.mul_one, hg, hM0, List.length_nil]
      omega
    | false =>
      have hn := h0.noRanks rfl hf
      simp only [if_neg (by omega : ¬ 1 ≠ 1), if_false, Bool.false_eq_true, List.length_append, length_putU, List.map_cons, List.sum_cons, List.length_cons,
        Nat.add_sub_cancel, Nat.mul_add, Nat.mul_one, hg, hn, hM0, List.length_nil]
      omega

end

section
variable {F : Type} [Mul F] [Div F] [NatCast F]

theorem levels_get (order : Nat) : ∀ (l : List ArrayBytes) (i k : Nat) (a : ArrayBytes), l[k]? = some a →
    (countLevelsOf order i l : List (TrieLevel F))[k]? = some
      { grams := if i + k ≠ 1 then some (a.grams, (a.grams : F) / (a.size : F)) else none
        ranks := (a.ranks, (a.ranks : F) / (a.size : F))
        ptrs := if i + k ≠ order then some (a.ptrs, (a.ptrs : F) / (a.size : F)) else none }
  | [], _, _, _, h => by simp at h
  | b :: l, i, 0, a, h => by cases h; rfl
  | b :: l, i, k + 1, a, h => by
    have := levels_get order l (i + 1) k a h
    rw [show i + 1 + k = i + (k + 1) by omega] at this
    exact this

theorem levels_length (order : Nat) : ∀ (l : List ArrayBytes) (i : Nat), (countLevelsOf order i l : List (TrieLevel F)).length = l.length
  | [], _ => rfl
  | b :: l, i => by rw [countLevelsOf, List.length_cons, levels_length order l, List.length_cons]

theorem levels_ranks (order : Nat) : ∀ (l : List ArrayBytes) (i : Nat),
    ((countLevelsOf order i l : List (TrieLevel F)).map (·.ranks.1)) = l.map (·.ranks)
  | [], _ => rfl
  | b :: l, i => by rw [countLevelsOf, List.map_cons, levels_ranks order l, List.map_cons]

theorem levels_grams (order : Nat) : ∀ (l : List ArrayBytes) (i : Nat), 1 < i →
    ((countLevelsOf order i l : List (TrieLevel F)).map fun y => (y.grams.map Prod.fst).getD 0) = l.map (·.grams)
  | [], _, _ => rfl
  | b :: l, i, hi => by
    rw [countLevelsOf, List.map_cons, levels_grams order l (i + 1) (by omega), List.map_cons]
    simp only [if_pos (by omega : i ≠ 1), Option.map_some, Option.getD_some]

theorem levels_ptrs (order : Nat) : ∀ (l : List ArrayBytes) (i : Nat), i + l.length = order + 1 → ∀ a, l.getLast? = some a →
    ((countLevelsOf order i l : List (TrieLevel F)).map fun y => (y.ptrs.map Prod.fst).getD 0).sum + a.ptrs = (l.map (·.ptrs)).sum
  | [], _, _, a, ha => by simp at ha
  | [b], i, hi, a, ha => by
    have ha : b = a := Option.some.inj ha
    subst ha
    rw [List.length_singleton] at hi
    rw [countLevelsOf, countLevelsOf, List.map_cons]
    simp only [if_neg (by omega : ¬ i ≠ order), Option.map_none, Option.getD_none, List.map_nil, List.sum_cons, List.sum_nil, List.map_cons]
    omega
  | b :: b' :: l, i, hi, a, ha => by
    have := levels_ptrs order (b' :: l) (i + 1) (by simp only [List.length_cons] at hi ⊢; omega) a (by rw [List.getLast?_cons_cons] at ha; exact ha)
    rw [countLevelsOf, List.map_cons, List.sum_cons, List.map_cons, List.sum_cons, ← this]
    simp only [List.length_cons] at hi
    simp only [if_pos (by omega : i ≠ order), Option.map_some, Option.getD_some]
    omega

end

theorem sum_range {α : Type} {f : Nat → Nat} {g : α → Nat} (l : List α) (h : ∀ (k : Nat) (a : α), l[k]? = some a → f k = g a) :
    ((List.range l.length).map f).sum = (l.map g).sum := by
  congr 1
  apply List.ext_getElem?
  intro k
  rw [List.getElem?_map, List.getElem?_map]
  by_cases hk : k < l.length
  · rw [List.getElem?_range hk, List.getElem?_eq_getElem hk, Option.map_some, Option.map_some, h k _ (List.getElem?_eq_getElem hk)]
  · rw [List.getElem?_eq_none (by rw [List.length_range]; omega), List.getElem?_eq_none (by omega)]; rfl


section
variable {G G' : GramsSt} {R R' : RanksSt} {F : GramsFile G} {F' : GramsFile G'} {Fr : RanksFile R} {Fr' : RanksFile R'} {jp : EF}
variable {M : GramsMeasure G'} {rb : Option R'.T → Nat} {vg vr : Nat}

/-- The size of a loaded array. -/
theorem loaded_get {fr : Bool} {B : List (StArray G R)} {B' : List (StArray G' R')} (hl : ArrLoaded F F' Fr Fr' jp fr 0 B B') {k : Nat} (hk : k < B.length) :
    ∃ b b', B[k]? = some b ∧ B'[k]? = some b' ∧ b.Loaded F F' Fr Fr' jp fr k b' := by
  have h1 : B[k]? = some (B[k]'hk) := List.getElem?_eq_getElem hk
  have h2 : B'[k]? = some (B'[k]'(by rw [hl.1]; exact hk)) := List.getElem?_eq_getElem _
  have := hl.2 k _ _ h1 h2
  rw [Nat.zero_add] at this
  exact ⟨_, _, h1, h2, this⟩

theorem loaded_sizes {fr : Bool} {B : List (StArray G R)} {B' : List (StArray G' R')} (hl : ArrLoaded F F' Fr Fr' jp fr 0 B B') :
    B'.map (·.size) = B.map (·.size) := by
  apply List.ext_getElem?
  intro k
  rw [List.getElem?_map, List.getElem?_map]
  by_cases hk : k < B.length
  · obtain ⟨b, b', h1, h2, h3⟩ := loaded_get hl hk
    rw [h1, h2, Option.map_some, Option.map_some, h3.size]
  · rw [List.getElem?_eq_none (by rw [hl.1]; omega), List.getElem?_eq_none (by omega)]; rfl

/-- What is printed for a loaded count trie. -/
theorem count_sizes {K N : Type} [Mul N] [Div N] [NatCast N] (hM : M.Exact F' vg) (hr : RanksExact rb Fr' vr) (hM0 : M.function none = 0)
    {c : Emphf K 64} {t : StCount K G R} {t2 : StCount K G' R'} {sizes : List Nat} (hne : sizes ≠ []) (h1 : t.order = sizes.length)
    (h2 : t.counts.length = sizes.length) (h3 : t.arrs.map (·.size) = sizes) (hsum : sizes.sum < 2 ^ 64)
    (hl : ArrLoaded F F' Fr Fr' jp true 0 t.arrs t2.arrs) (l1 : t2.order = t.order) (l3 : t2.voc = t.voc) (l4 : t2.counts = t.counts) (header : Byte) :
    Spec.CountSizes (StArray.parts F Fr jp (t.voc.save c) t.arrs) (saveCounts t.counts) vg vr (M.bytes none) (Spec.hashFunctionBytes c t.voc.h)
      (fun k => M.function (t2.arrs[k]?.bind (·.grams))) sizes (saveFile header (t.save F Fr jp c)).length
      (t2.printSizes (F := N) M.bytes rb (saveFile header (t.save F Fr jp c)).length) := by
  have hpos : 0 < sizes.length := List.length_pos_iff.2 hne
  have hB : t.arrs.length = sizes.length := by rw [← h3, List.length_map]
  have hB' : t2.arrs.length = sizes.length := by rw [hl.1, hB]
  have hparts : (t2.arrs.map (arrayBytes M.bytes rb)).map (·.size) = sizes := by
    rw [List.map_map, ← h3, ← loaded_sizes hl]; rfl
  have hnum : ((t2.arrs.map (arrayBytes M.bytes rb)).map (·.size)).sum % 2 ^ 64 = sizes.sum := by rw [hparts, Nat.mod_eq_of_lt hsum]
  have hgr : (t2.arrs.map (arrayBytes M.bytes rb)).map (·.grams) = t2.arrs.map fun b => M.bytes b.grams := List.map_map
  have hrk : (t2.arrs.map (arrayBytes M.bytes rb)).map (·.ranks) = t2.arrs.map fun b => rb b.ranks := List.map_map
  have hpt : (t2.arrs.map (arrayBytes M.bytes rb)).map (·.ptrs) = t2.arrs.map fun b => (arrayBytes M.bytes rb b).ptrs := List.map_map
  generalize hn : (saveFile header (t.save F Fr jp c)).length = n
  have hkey : ∀ k, k < sizes.length → ∃ b b', t.arrs[k]? = some b ∧ t2.arrs[k]? = some b' ∧ b.Loaded F F' Fr Fr' jp true k b' := fun k hk =>
    loaded_get hl (by rw [hB]; exact hk)
  refine { total := rfl, orders := ?_, level := ?_, vocab := ?_, values := ?_, grams := ?_, ranks := ?_, ptrs := ?_, shares := ?_, account := ?_ }
  · show (countLevelsOf t2.order 1 (t2.arrs.map _) : List (TrieLevel N)).length = _
    rw [levels_length, List.length_map, hB']
  · intro k m hm
    have hk : k < sizes.length := (List.getElem?_eq_some_iff.1 hm).1
    obtain ⟨b, b', k1, k2, k3⟩ := hkey k hk
    obtain ⟨q1, q2, q3⟩ := array_length hM hr k3
    have hsz : b'.size = m := by
      have := congrArg (·[k]?) (show t.arrs.map (·.size) = sizes from h3)
      simp only [List.getElem?_map, k1, Option.map_some, hm] at this
      rw [k3.size]; exact Option.some.inj this
    refine ⟨M.bytes b'.grams, rb b'.ranks, (arrayBytes M.bytes rb b').ptrs, ⟨fun hk0 => ?_, fun _ => ?_, ?_⟩, ?_⟩
    · show (F.save (t.arrs[k]?.bind (·.grams))).length = _ + M.function (t2.arrs[k]?.bind (·.grams)) + _
      rw [k1, k2]; exact q1 hk0
    · show (Fr.save (t.arrs[k]?.bind (·.ranks))).length = _
      rw [k1]; exact q2 (.inr rfl)
    · show (((t.arrs[k]?.bind (·.ptrs)).getD jp).save).length = _
      rw [k1]; exact q3
    · refine (levels_get t2.order (t2.arrs.map (arrayBytes M.bytes rb)) 1 k (arrayBytes M.bytes rb b') (by rw [List.getElem?_map, k2]; rfl)).trans ?_
      rw [show (arrayBytes M.bytes rb b').size = m from hsz, l1, h1]
      have q1 : (if 1 + k ≠ 1 then some ((arrayBytes M.bytes rb b').grams, ((arrayBytes M.bytes rb b').grams : N) / (m : N)) else none) =
          if k = 0 then none else some ((arrayBytes M.bytes rb b').grams, ((arrayBytes M.bytes rb b').grams : N) / (m : N)) := by
        by_cases hk : k = 0
        · rw [if_pos hk, if_neg (by omega)]
        · rw [if_neg hk, if_pos (by omega)]
      have q2 : (if 1 + k ≠ sizes.length then some ((arrayBytes M.bytes rb b').ptrs, ((arrayBytes M.bytes rb b').ptrs : N) / (m : N)) else none) =
          if k + 1 = sizes.length then none else some ((arrayBytes M.bytes rb b').ptrs, ((arrayBytes M.bytes rb b').ptrs : N) / (m : N)) := by
        by_cases hk : k + 1 = sizes.length
        · rw [if_pos hk, if_neg (by omega)]
        · rw [if_neg hk, if_pos (by omega)]
      rw [q1, q2]
      rfl
  · show (t.voc.save c).length = t2.voc.dataBytes + Spec.hashFunctionBytes c t.voc.h + 8
    rw [l3, sv_length]; omega
  · show (saveCounts t.counts).length = countsBytes t2.counts + _
    rw [l4, counts_length, h2]
  · show ((t2.arrs.map (arrayBytes M.bytes rb)).map (·.grams)).sum =
      ((countLevelsOf t2.order 1 (t2.arrs.map _) : List (TrieLevel N)).map fun l => (l.grams.map Prod.fst).getD 0).sum + M.bytes none
    obtain ⟨b, b', k1, k2, k3⟩ := hkey 0 hpos
    generalize t2.arrs = l' at *
    cases l' with
    | nil => simp at k2
    | cons y l' =>
      cases k2
      have hg := k3.first rfl
      rw [List.map_cons, List.map_cons, List.sum_cons, countLevelsOf, List.map_cons, List.sum_cons, levels_grams _ _ 2 (by omega)]
      simp only [if_neg (by omega : ¬ 1 ≠ 1), Option.map_none, Option.getD_none]
      have : (arrayBytes M.bytes rb b').grams = M.bytes none := by unfold arrayBytes; rw [hg]
      omega
  · show ((t2.arrs.map (arrayBytes M.bytes rb)).map (·.ranks)).sum = ((countLevelsOf t2.order 1 (t2.arrs.map _) : List (TrieLevel N)).map (·.ranks.1)).sum
    rw [levels_ranks]
  · show ((t2.arrs.map (arrayBytes M.bytes rb)).map (·.ptrs)).sum + 8 * 2 =
      ((countLevelsOf t2.order 1 (t2.arrs.map _) : List (TrieLevel N)).map fun l => (l.ptrs.map Prod.fst).getD 0).sum +
        (((t.arrs[sizes.length - 1]?.bind (·.ptrs)).getD jp).save).length
    obtain ⟨b, b', k1, k2, k3⟩ := hkey (sizes.length - 1) (by omega)
    obtain ⟨-, -, q3⟩ := array_length hM hr k3
    have hlast : (t2.arrs.map (arrayBytes M.bytes rb)).getLast? = some (arrayBytes M.bytes rb b') := by
      rw [List.getLast?_eq_getElem?, List.length_map, hB', List.getElem?_map, k2]; rfl
    rw [← levels_ptrs (F := N) t2.order _ 1 (by rw [List.length_map, hB', l1, h1]; omega) _ hlast, k1]
    have : (((some b).bind (·.ptrs)).getD jp).save.length = (arrayBytes M.bytes rb b').ptrs + 16 := q3
    rw [this]
    omega
  · show Spec.ShareOf n _ (share n (((t2.arrs.map (arrayBytes M.bytes rb)).map (·.size)).sum % 2 ^ 64) _) ∧
      Spec.ShareOf n _ (share n (((t2.arrs.map (arrayBytes M.bytes rb)).map (·.size)).sum % 2 ^ 64) _) ∧
      Spec.ShareOf n _ (share n (((t2.arrs.map (arrayBytes M.bytes rb)).map (·.size)).sum % 2 ^ 64) _) ∧
      (n : N) / (((((t2.arrs.map (arrayBytes M.bytes rb)).map (·.size)).sum % 2 ^ 64 : Nat)) : N) = _
    rw [hnum]
    exact ⟨⟨rfl, rfl⟩, ⟨rfl, rfl⟩, ⟨rfl, rfl⟩, rfl⟩
  · show n + M.bytes none = t2.voc.dataBytes + countsBytes t2.counts + ((t2.arrs.map (arrayBytes M.bytes rb)).map (·.grams)).sum +
      ((t2.arrs.map (arrayBytes M.bytes rb)).map (·.ranks)).sum + ((t2.arrs.map (arrayBytes M.bytes rb)).map (·.ptrs)).sum + _ + _ + 3 + _
    rw [hgr, hrk, hpt]
    have hs := saveAll_length hM hr (by intro e; rw [e] at hB; simp at hB; omega) hM0 hl
    have hfun : ((List.range sizes.length).map fun k => M.function (t2.arrs[k]?.bind (·.grams))).sum = (t2.arrs.map fun b => M.function b.grams).sum := by
      rw [← hB']
      exact sum_range _ fun k a ha => by rw [ha]; rfl
    rw [hfun]
    simp only [if_true, hB] at hs
    rw [← hn]
    unfold saveFile StCount.save
    simp only [List.length_append, length_putU, length_putWord, counts_length, sv_length, l3, l4, h2]
    omega

/-- What is printed for a loaded backoff trie. -/
theorem prob_sizes {K V N : Type} [Mul N] [Div N] [NatCast N] (hM : M.Exact F' vg) (hr : RanksExact rb Fr' vr) (hM0 : M.function none = 0)
    {fb : FloatBits V} {c : Emphf K 64} {bb : Nat} {t : StProb K V G R} {t2 : StProb K V G' R'} {sizes : List Nat} (hne : sizes ≠ [])
    (h2 : t.ps.length = sizes.length - 1) (h2' : t.bs.length = sizes.length - 2) (h3 : t.arrs.map (·.size) = sizes) (hsum : sizes.sum < 2 ^ 64)
    (hl : ArrLoaded F F' Fr Fr' jp false 0 t.arrs t2.arrs) (l : t2 = ⟨t.order, t.ro, t.unk, t.voc, t2.arrs, t.ps, t.bs, t.pb⟩) (header : Byte) :
    Spec.BackoffSizes (StArray.parts F Fr jp (t.voc.save c) t.arrs) (saveQuantized fb t.pb t.ps) (saveQuantized fb bb t.bs) vg vr (M.bytes none) (rb none)
      (Spec.hashFunctionBytes c t.voc.h) (fun k => M.function (t2.arrs[k]?.bind (·.grams))) sizes (saveFile header (t.save F Fr jp fb c bb)).length
      (t2.printSizes (F := N) M.bytes rb (saveFile header (t.save F Fr jp fb c bb)).length) := by
  have hpos : 0 < sizes.length := List.length_pos_iff.2 hne
  have l3 : t2.voc = t.voc := by rw [l]
  have l4 : t2.ps = t.ps := by rw [l]
  have l5 : t2.bs = t.bs := by rw [l]
  have hB : t.arrs.length = sizes.length := by rw [← h3, List.length_map]
  have hB' : t2.arrs.length = sizes.length := by rw [hl.1, hB]
  have hparts : (t2.arrs.map (arrayBytes M.bytes rb)).map (·.size) = sizes := by
    rw [List.map_map, ← h3, ← loaded_sizes hl]; rfl
  have hnum : ((t2.arrs.map (arrayBytes M.bytes rb)).map (·.size)).sum % 2 ^ 64 = sizes.sum := by rw [hparts, Nat.mod_eq_of_lt hsum]
  have hgr : (t2.arrs.map (arrayBytes M.bytes rb)).map (·.grams) = t2.arrs.map fun b => M.bytes b.grams := List.map_map
  have hrk : (t2.arrs.map (arrayBytes M.bytes rb)).map (·.ranks) = t2.arrs.map fun b => rb b.ranks := List.map_map
  have hpt : (t2.arrs.map (arrayBytes M.bytes rb)).map (·.ptrs) = t2.arrs.map fun b => (arrayBytes M.bytes rb b).ptrs := List.map_map
  generalize hn : (saveFile header (t.save F Fr jp fb c bb)).length = n
  have hkey : ∀ k, k < sizes.length → ∃ b b', t.arrs[k]? = some b ∧ t2.arrs[k]? = some b' ∧ b.Loaded F F' Fr Fr' jp false k b' := fun k hk =>
    loaded_get hl (by rw [hB]; exact hk)
  refine { total := rfl, orders := ?_, level := ?_, vocab := ?_, probs := ?_, backoffs := ?_, grams := ?_, ranks := ?_, ptrs := ?_, shares := ?_, account := ?_ }
  · show ((t2.arrs.map _).map _).length = _
    rw [List.length_map, List.length_map, hB']
  · intro k hk
    obtain ⟨b, b', k1, k2, k3⟩ := hkey k hk
    obtain ⟨q1, q2, q3⟩ := array_length hM hr k3
    refine ⟨M.bytes b'.grams, rb b'.ranks, (arrayBytes M.bytes rb b').ptrs, ⟨fun hk0 => ?_, fun hw => ?_, ?_⟩, ?_, fun hk0 => ?_⟩
    · show (F.save (t.arrs[k]?.bind (·.grams))).length = _ + M.function (t2.arrs[k]?.bind (·.grams)) + _
      rw [k1, k2]; exact q1 hk0
    · show (Fr.save (t.arrs[k]?.bind (·.ranks))).length = _
      rw [k1]; exact q2 (.inl (of_decide_eq_true hw))
    · show (((t.arrs[k]?.bind (·.ptrs)).getD jp).save).length = _
      rw [k1]; exact q3
    · show ((t2.arrs.map (arrayBytes M.bytes rb)).map _)[k]? = _
      rw [List.getElem?_map, List.getElem?_map, k2]; rfl
    · rw [k3.first hk0, k3.noRanks hk0 rfl]; exact ⟨rfl, rfl⟩
  · show (t.voc.save c).length = t2.voc.dataBytes + Spec.hashFunctionBytes c t.voc.h + 8
    rw [l3, dv_length]; omega
  · show (saveQuantized fb t.pb t.ps).length = quantizedBytes t2.ps + _
    rw [l4, quantized_length, h2]
  · show (saveQuantized fb bb t.bs).length = quantizedBytes t2.bs + _
    rw [l5, quantized_length, h2']
  · show ((t2.arrs.map (arrayBytes M.bytes rb)).map (·.grams)).sum = (((t2.arrs.map (arrayBytes M.bytes rb)).map _).map _).sum
    rw [List.map_map (f := fun a : ArrayBytes => (a.grams, a.ranks, a.ptrs))]; rfl
  · show ((t2.arrs.map (arrayBytes M.bytes rb)).map (·.ranks)).sum = (((t2.arrs.map (arrayBytes M.bytes rb)).map _).map _).sum
    rw [List.map_map (f := fun a : ArrayBytes => (a.grams, a.ranks, a.ptrs))]; rfl
  · show ((t2.arrs.map (arrayBytes M.bytes rb)).map (·.ptrs)).sum = (((t2.arrs.map (arrayBytes M.bytes rb)).map _).map _).sum
    rw [List.map_map (f := fun a : ArrayBytes => (a.grams, a.ranks, a.ptrs))]; rfl
  · show Spec.ShareOf n _ (share n (((t2.arrs.map (arrayBytes M.bytes rb)).map (·.size)).sum % 2 ^ 64) _) ∧
      Spec.ShareOf n _ (share n (((t2.arrs.map (arrayBytes M.bytes rb)).map (·.size)).sum % 2 ^ 64) _) ∧
      Spec.ShareOf n _ (share n (((t2.arrs.map (arrayBytes M.bytes rb)).map (·.size)).sum % 2 ^ 64) _) ∧
      (n : N) / (((((t2.arrs.map (arrayBytes M.bytes rb)).map (·.size)).sum % 2 ^ 64 : Nat)) : N) = _
    rw [hnum]
    exact ⟨⟨rfl, rfl⟩, ⟨rfl, rfl⟩, ⟨rfl, rfl⟩, rfl⟩
  · show n + M.bytes none + rb none = t2.voc.dataBytes + quantizedBytes t2.ps + quantizedBytes t2.bs + ((t2.arrs.map (arrayBytes M.bytes rb)).map (·.grams)).sum +
      ((t2.arrs.map (arrayBytes M.bytes rb)).map (·.ranks)).sum + ((t2.arrs.map (arrayBytes M.bytes rb)).map (·.ptrs)).sum + _ + _ + 3 + 4 + _
    rw [hgr, hrk, hpt]
    have hs := saveAll_length hM hr (by intro e; rw [e] at hB; simp at hB; omega) hM0 hl
    have hfun : ((List.range sizes.length).map fun k => M.function (t2.arrs[k]?.bind (·.grams))).sum = (t2.arrs.map fun b => M.function b.grams).sum := by
      rw [← hB']
      exact sum_range _ fun k a ha => by rw [ha]; rfl
    rw [hfun]
    simp only [Bool.false_eq_true, if_false, hB] at hs
    rw [← hn]
    unfold saveFile StProb.save
    have hF : (putF fb t.unk).length = 4 := length_putWord 4 _
    simp only [List.length_append, length_putU, length_putWord, quantized_length, dv_length, l3, l4, l5, h2, h2', hF]
    omega

end

/-- What is printed depends on what queries keep. -/
theorem count_same {K N : Type} [Mul N] [Div N] [NatCast N] {G : GramsSt} {R : RanksSt} {gb : Option G.S → Nat} {rb : Option R.T → Nat} (hg : G.Keeps gb) (hr : R.Keeps rb)
    {t t' : StCount K G R} {qs : List (List K)} {vs : List Nat} (e : t.lookups qs = some (vs, t')) (n : Nat) :
    (t'.printSizes gb rb n : TriePrinted N) = t.printSizes gb rb n := by
  obtain ⟨k1, k2⟩ := StCount.lookups_key hg hr e
  have h := congrArg (List.map fun k : Nat × Nat × Nat × Option EF =>
    (⟨k.1, k.2.1, k.2.2.1, (k.2.2.2.getD ⟨0, 0, ⟨0, []⟩, DArray.empty, ⟨0, []⟩⟩).bytes⟩ : ArrayBytes)) k1
  rw [List.map_map, List.map_map] at h
  have h' : t'.arrs.map (arrayBytes gb rb) = t.arrs.map (arrayBytes gb rb) := h
  unfold StCount.printSizes
  rw [h', k2]

theorem prob_same {K V N : Type} [DecidableEq K] [FloatArith V] [Mul N] [Div N] [NatCast N] {G : GramsSt} {R : RanksSt} {gb : Option G.S → Nat} {rb : Option R.T → Nat}
    (hg : G.Keeps gb) (hr : R.Keeps rb) {fb : FloatBits V} {t t' : StProb K V G R} {d : Nat} {one : V} {m : Nat} {ops : List (Nat × Option K)}
    {v : List (Option (V × Bool))} (e : t.session fb d one m ops = some (v, t')) (n : Nat) :
    (t'.printSizes gb rb n : ProbPrinted N) = t.printSizes gb rb n := by
  obtain ⟨k1, k2⟩ := StProb.session_key hg hr e
  have h := congrArg (List.map fun k : Nat × Nat × Nat × Option EF =>
    (⟨k.1, k.2.1, k.2.2.1, (k.2.2.2.getD ⟨0, 0, ⟨0, []⟩, DArray.empty, ⟨0, []⟩⟩).bytes⟩ : ArrayBytes)) k1
  rw [List.map_map, List.map_map] at h
  have h' : t'.arrs.map (arrayBytes gb rb) = t.arrs.map (arrayBytes gb rb) := h
  unfold StProb.printSizes
  rw [h', k2]

/-- Loading the file of the queried trie. -/
theorem loaded_of_key {G G' : GramsSt} {R R' : RanksSt} {F : GramsFile G} {F' : GramsFile G'} {Fr : RanksFile R} {Fr' : RanksFile R'} {jp : EF} {fr : Bool}
    {A B : List (StArray G R)} {B' : List (StArray G' R')} (hl : ArrLoaded F F' Fr Fr' jp fr 0 B B')
    (h : A.map (StArray.key F.save Fr.save) = B.map (StArray.key F.save Fr.save)) : ArrLoaded F F' Fr Fr' jp fr 0 A B' := by
  have hlen : A.length = B.length := by simpa using congrArg List.length h
  refine ⟨hl.1.trans hlen.symm, fun k a b' ha hb' => ?_⟩
  have hk := (List.getElem?_eq_some_iff.1 ha).1
  have h2 : B[k]? = some (B[k]'(by omega)) := List.getElem?_eq_getElem _
  have hL := hl.2 k _ _ h2 hb'
  have := congrArg (·[k]?) h
  simp only [List.getElem?_map, ha, h2, Option.map_some, Option.some.injEq] at this
  unfold StArray.key at this
  simp only [Prod.mk.injEq] at this
  obtain ⟨a1, a2, a3, a4⟩ := this
  exact ⟨by rw [a1]; exact hL.size, hL.first, by rw [a2]; exact hL.grams, by rw [a4]; exact hL.ptrs, by rw [a2]; exact hL.again, by rw [a3]; exact hL.ranks,
    hL.noRanks, by rw [a3]; exact hL.ranksRead⟩

theorem pef_keeps (junkU junkD : Nat → List W) : (GramsSt.pef junkU junkD).Keeps (GramsMeasure.pef junkU junkD).bytes := by
  intro s b e id r s' h
  obtain ⟨p, -, hp⟩ := Option.map_eq_some_iff.1 (show (s.seq.find s.junkU s.junkD s.en b e id).map _ = _ from h)
  cases hp
  rfl

theorem pspef_keeps (swap : Bool) (junkU junkD : Nat → List W) : (RanksSt.pspef swap junkU junkD).Keeps (pspefBytes swap junkU junkD) := by
  intro s i r s' h
  have := RanksFile.pspef_keeps swap junkU junkD s i r s' h
  have h2 := congrArg List.length this
  have e : ∀ o : PefObj, ((RanksFile.pspef swap junkU junkD).save (some o)).length = pspefBytes swap junkU junkD (some o) + 16 := by
    intro o
    show (putU 8 _ ++ PEF.save _).length = 8 + PEF.bytes _ + 16
    rw [List.length_append, length_putU, pef_length]
    omega
  have e1 := e s
  have e2 := e s'
  omega

theorem data_keeps {R : RanksData} (rb : RankBytes R) (mem : Nat → List W) : (R.st mem).Keeps (ranksOf rb mem) := by
  intro s i r s' h
  obtain ⟨p, -, hp⟩ := Option.map_eq_some_iff.1 (show (R.get s.1 s.2 i).map _ = _ from h)
  cases hp
  rfl

theorem pefRanks_keeps (junkU junkD : Nat → List W) : (pr : PefRanks) → (pr.stored junkU junkD).Keeps (pefRanks junkU junkD pr)
  | .ic => data_keeps _ _
  | .psef => data_keeps _ _
  | .pspef s => pspef_keeps s _ _

theorem fastEF_keeps (hr : Nat → Mphf Nat 64) (c : Emphf Nat 64) (ju : UTable Nat 64) :
    (GramsData.fastEF hr c ju).st.Keeps (GramsMeasure.fastEF hr c ju).bytes := by
  intro s b e id r s' h
  obtain ⟨v, -, h⟩ := Option.map_eq_some_iff.1 h
  cases h
  rfl

theorem build_voc {K : Type} [DecidableEq K] {G : GramsSt} {R : RanksSt} {L : SortLib} {hv : Mphf K 64} {ro : Nat} {files : List (List (List K × Nat))} {t : StCount K G R}
    (e : StCount.build L hv G R ro files = some (.ok t)) : t.voc.h = hv := by
  unfold StCount.build at e
  split at e
  · cases e
  obtain ⟨_, -, e⟩ := Res.bind_ok_iff e
  obtain ⟨_, -, e⟩ := Res.bind_ok_iff e
  obtain ⟨_, -, e⟩ := Res.bind_ok_iff e
  obtain ⟨_, -, e⟩ := Res.bind_ok_iff e
  obtain ⟨t, e5, e⟩ := Res.bind_ok_iff e
  obtain ⟨_, -, e⟩ := Res.bind_ok_iff e
  obtain ⟨_, -, e⟩ := Res.bind_ok_iff e
  cases e
  obtain ⟨f0, -, e5⟩ := Option.bind_eq_some_iff.1 (Res.lift_ok_iff e5)
  exact buildVocab_h e5

theorem build_probVoc {K V : Type} [DecidableEq K] [FloatArith V] {G : GramsSt} {R : RanksSt} {fb : FloatBits V} {sort : List V → List V} {negInf default unk : V}
    {unkWord : K} {hv : Mphf K 64} {ro pb bb : Nat} {data : List (List (List K × V × V))} {t : StProb K V G R}
    (e : StProb.build fb sort negInf unkWord default hv G R ro unk pb bb data = some (.ok t)) : t.voc.h = hv := by
  unfold StProb.build at e
  split at e
  · cases e
  obtain ⟨_, -, e⟩ := Res.bind_ok_iff e
  obtain ⟨_, -, e⟩ := Res.bind_ok_iff e
  obtain ⟨t, e5, e⟩ := Res.bind_ok_iff e
  obtain ⟨_, -, e⟩ := Res.bind_ok_iff e
  obtain ⟨_, -, e⟩ := Res.bind_ok_iff e
  cases e
  exact buildProbVocab_h (Res.lift_ok_iff e5)

theorem prob_build_sizes {K V : Type} [DecidableEq K] [FloatArith V] {I : GramsImpl} {J : RanksImpl} {fb : FloatBits V} {sort : List V → List V} {negInf default unk : V}
    {unkWord : K} {hv : Mphf K 64} {ro pb bb : Nat} {data : List (List (List K × V × V))} {t : TrieProb K V}
    (e : TrieProb.build fb sort negInf unkWord default hv I J ro unk pb bb data = some (.ok t)) :
    t.order = data.length ∧ t.arrs.map (·.size) = data.map List.length := by
  unfold TrieProb.build at e
  split at e
  · cases e
  obtain ⟨_, -, e⟩ := Res.bind_ok_iff e
  obtain ⟨_, -, e⟩ := Res.bind_ok_iff e
  obtain ⟨_, -, e⟩ := Res.bind_ok_iff e
  obtain ⟨_, -, e⟩ := Res.bind_ok_iff e
  obtain ⟨arrs, e1, e⟩ := Res.bind_ok_iff e
  cases e
  refine ⟨rfl, ?_⟩
  show arrs.map (·.size) = _
  rw [buildLevels_sizes _ _ _ (Nat.le_refl 1) e1, List.map_map]
  rfl

theorem prob_sim_sizes {K V : Type} {G : GramsSt} {R : RanksSt} {t : TrieProb K V} {t' : StProb K V G R} (h : t'.Sim t) :
    t'.arrs.map (·.size) = t.arrs.map (·.size) := by
  have hl := h.arrs.1
  apply List.ext_getElem?
  intro i
  rw [List.getElem?_map, List.getElem?_map]
  by_cases hi : i < t.arrs.length
  · obtain ⟨b, hb, hs⟩ := h.arrs.get (List.getElem?_eq_getElem hi)
    rw [hb, List.getElem?_eq_getElem hi, Option.map_some, Option.map_some, hs.size]
  · rw [List.getElem?_eq_none (by omega), List.getElem?_eq_none (by omega)]; rfl

end PefSizes

open Sizes PefSizes in
/-- **C54** for count tries over `uniform_pef_sequence` grams: built, queried (any queries that C49 covers), saved, and loaded by `print_stats`, and
also after further queries.  The numbers printed are those of the parts of the file and account for every byte of it (`Spec.CountSizes`); no hash
functions are written for the grams; 57 bytes are counted for the grams of the first order, which do not exist in the file. -/
theorem C54_pef_count_trie {K N : Type} [DecidableEq K] [Mul N] [Div N] [NatCast N] {L : SortLib} (hL : L.Valid) {U : List K}
    {files : List (List (List K × Nat))} {ro : Nat} (h : Spec.CountFiles U files ro) (hp : Spec.PefFiles U files ro)
    {hv : Mphf K 64} (hb : hv.BuiltFrom U) {c : Emphf K 64} (hc : Spec.EmphfReads c hv)
    {junkU junkD junkU' junkD' : Nat → List W} (hu : ∀ k, junkU k ≠ []) (hj : ∀ k, junkD k ≠ []) (hu' : ∀ k, junkU' k ≠ []) (hj' : ∀ k, junkD' k ≠ [])
    (pr : PefRanks) (hpr : ∀ f ∈ files, f.length < pr.maxLines) {ji : ICSeq} {je jp : EF} (hji : ji.Fits) (hje : je.Fits) (hjp : jp.Fits) (header : Byte) :
    ∃ t, StCount.build L hv (GramsSt.pef junkU junkD) (pr.stored junkU junkD) ro files = some (.ok t) ∧
      ∀ before : List (List K × Nat), (∀ p ∈ before, (∃ f ∈ files, p ∈ f) ∨ (p.2 = NF ∧ Spec.PefAbsent hv U files ro p.1)) →
        ∃ t1, t.lookups (before.map (·.1)) = some (before.map (·.2), t1) ∧
          ∃ t2 n, loadFile (StCount.load (GramsFile.pef junkU' junkD') (pr.file junkU' junkD' ji je) c)
              (saveFile header (t1.save (GramsFile.pef junkU junkD) (pr.file junkU junkD ji je) jp c)) = some (t2, n) ∧
            n = (saveFile header (t1.save (GramsFile.pef junkU junkD) (pr.file junkU junkD ji je) jp c)).length ∧
            ∃ p : TriePrinted N, t2.printSizes (GramsMeasure.pef junkU' junkD').bytes (pefRanks junkU' junkD' pr) n = p ∧
              Spec.CountSizes (StArray.parts (GramsFile.pef junkU junkD) (pr.file junkU junkD ji je) jp (t1.voc.save c) t1.arrs) (saveCounts t1.counts) 2 2 57
                (Spec.hashFunctionBytes c hv) (fun _ => 0) (files.map List.length) n p ∧
              ∀ qs vs t3, t2.lookups qs = some (vs, t3) → t3.printSizes (GramsMeasure.pef junkU' junkD').bytes (pefRanks junkU' junkD' pr) n = p := by
  have hsz : ∀ f ∈ files, f.length < 2 ^ 57 := fun f hf => by have := TrieCount.len_of_size h hf; omega
  obtain ⟨t, e, hg⟩ := TrieCount.build_ok hL (ex := PefTrie.ClearAt U (files.map (·.map (·.1))) ro) h.data h.order_min h.order_max h.remapping
    h.counts hsz hb (PefTrie.grams_exact h hp) (PefRanks.exact h pr hpr)
  have hG := GramsFile.pef_stores hu hj hu' hj'
  have hR := pr.stores hu hj hu' hj' hji hje
  obtain ⟨t', e', hs, hf⟩ := StCount.build_filed hG hR hjp hL h hb hc e
  refine ⟨t', e', fun before hm => ?_⟩
  obtain ⟨t1, e1, hs1⟩ := hs.of_lookups fun p hpm => PefTrie.answer h hg (hm p hpm)
  have hsave := StCount.lookups_save (jp := jp) (c := c) hG.keeps hR.keeps e1
  obtain ⟨t2, e2, hs2, hl, l1, l2, l3, l4⟩ := hf.load hs
  obtain ⟨k1, k2⟩ := StCount.lookups_key (kg := (GramsFile.pef junkU junkD).save) (kr := (pr.file junkU junkD ji je).save) hG.keeps hR.keeps e1
  have hl1 := loaded_of_key hl k1
  obtain ⟨m1, m2⟩ := TrieCount.build_sizes e
  have hmin := h.order_min
  have hord : t'.order = (files.map List.length).length := by rw [hs.order, m1, List.length_map]
  refine ⟨t1, e1, t2, _, by rw [hsave]; exact C36_file e2 header, by rw [hsave], _, rfl, ?_, fun qs vs t3 e3 => count_same (pef_keeps _ _) (pefRanks_keeps _ _ pr) e3 _⟩
  have := count_sizes (N := N) (pef_exact junkU' junkD') (pefRanks_exact junkU' junkD' ji je pr) rfl (c := c) (t := t1) (t2 := t2) (sizes := files.map List.length)
    (by intro e; have := congrArg List.length e; simp at this; rw [this] at hmin; simp at hmin) (by rw [k2]; exact hord)
    (by rw [k2]; exact hf.countsLen.trans hord) (by rw [hs1.sizes, m2]) (files_sum h) hl1 (by rw [k2]; exact l1) (by rw [k2]; exact l3) (by rw [k2]; exact l4) header
  have hvoc : t1.voc.h = hv := by rw [k2]; show t'.voc.h = hv; exact build_voc e'
  rw [hvoc] at this
  rw [← hsave]
  exact this

open Sizes PefSizes in
/-- **C54** for count tries over `fast_ef_sequence` grams with any of the rank sequences, also those that queries change: the same, with a hash
function and 4 vectors for the grams of each order but the first; 81 bytes are counted for the grams of the first order. -/
theorem C54_ef_count_trie {K N : Type} [DecidableEq K] [Mul N] [Div N] [NatCast N] {L : SortLib} (hL : L.Valid) {U : List K}
    {files : List (List (List K × Nat))} {ro : Nat} (h : Spec.CountFiles U files ro)
    {hv : Mphf K 64} (hb : hv.BuiltFrom U) {c : Emphf K 64} (hc : Spec.EmphfReads c hv) {hr : Nat → Mphf Nat 64} (hh : Spec.RangeHashes hr files)
    {c' : Emphf Nat 64} (hc' : ∀ k, Spec.EmphfReads c' (hr k)) {ju : UTable Nat 64} (hju : ju.Fits c') {jg : FastEF} (hjg : jg.Fits c')
    {junkU junkD junkU' junkD' : Nat → List W} (hu : ∀ k, junkU k ≠ []) (hj : ∀ k, junkD k ≠ []) (hu' : ∀ k, junkU' k ≠ []) (hj' : ∀ k, junkD' k ≠ [])
    (pr : PefRanks) (hpr : ∀ f ∈ files, f.length < pr.maxLines) {ji : ICSeq} {je jp : EF} (hji : ji.Fits) (hje : je.Fits) (hjp : jp.Fits) (header : Byte) :
    ∃ t, StCount.build L hv (GramsData.fastEF hr c' ju).st (pr.stored junkU junkD) ro files = some (.ok t) ∧
      ∀ before : List (List K × Nat), (∀ p ∈ before, (∃ f ∈ files, p ∈ f) ∨ (p.2 = NF ∧ Spec.EfAbsent hv U files ro p.1)) →
        ∃ t1, t.lookups (before.map (·.1)) = some (before.map (·.2), t1) ∧
          ∃ t2 n, loadFile (StCount.load (GramsFile.data (GramsData.fastEF hr c' ju) jg) (pr.file junkU' junkD' ji je) c)
              (saveFile header (t1.save (GramsFile.data (GramsData.fastEF hr c' ju) jg) (pr.file junkU junkD ji je) jp c)) = some (t2, n) ∧
            n = (saveFile header (t1.save (GramsFile.data (GramsData.fastEF hr c' ju) jg) (pr.file junkU junkD ji je) jp c)).length ∧
            ∃ p : TriePrinted N, t2.printSizes (GramsMeasure.fastEF hr c' ju).bytes (pefRanks junkU' junkD' pr) n = p ∧
              Spec.CountSizes (StArray.parts (GramsFile.data (GramsData.fastEF hr c' ju) jg) (pr.file junkU junkD ji je) jp (t1.voc.save c) t1.arrs)
                (saveCounts t1.counts) 4 2 81 (Spec.hashFunctionBytes c hv)
                (fun k => (GramsMeasure.fastEF hr c' ju).function (t2.arrs[k]?.bind (·.grams))) (files.map List.length) n p ∧
              ∀ qs vs t3, t2.lookups qs = some (vs, t3) → t3.printSizes (GramsMeasure.fastEF hr c' ju).bytes (pefRanks junkU' junkD' pr) n = p := by
  have hsz : ∀ f ∈ files, f.length < 2 ^ 57 := fun f hf => by have := TrieCount.len_of_size h hf; omega
  obtain ⟨t, e, hg⟩ := TrieCount.build_ok hL (G := (GramsData.fastEF hr c' ju).limit) (ex := fun _ _ => True) h.data h.order_min h.order_max h.remapping
    h.counts hsz hb (fun k prev curr h1 h2 => by
      refine GramsData.limit_exact (fun d ed => ?_) (TrieCount.fastEF_levels h hh k prev curr h1 h2)
      obtain ⟨ptrs', q1, q2, -⟩ :=
        C38_pointers_delimit_children (pat := List.dropLast) (Trie.lex_irrefl U) (Trie.lex_trans U) (h.data.sorted k prev h1)
          (Trie.patterns_sorted (h.data.len _ curr h2) (h.data.words _ curr h2) (h.data.sorted _ curr h2)) (h.data.prefix_closed k prev curr h1 h2)
      rw [q2] at q1
      exact fastEF_level_fits h hh hc' hju k prev curr h1 h2 _ _ d q1 (by rw [List.length_map]) ed) (PefRanks.exact h pr hpr)
  have hans : ∀ p : List K × Nat, ((∃ f ∈ files, p ∈ f) ∨ (p.2 = NF ∧ Spec.EfAbsent hv U files ro p.1)) → t.lookup p.1 = some p.2 := by
    rintro p (⟨f, hf, hpf⟩ | ⟨h1, h2, h3, h4, h5, h6, h7⟩)
    · exact TrieCount.lookup_present hg h.data h.remapping h.order_max hsz hf hpf
    · rw [h1]; exact TrieCount.absent_of_good h hg h2 h3 h4 h5 h6 h7 (fun _ _ _ _ _ _ _ => trivial) (fun _ _ _ _ _ _ => trivial)
  have hG := GramsFile.fastEF_stores (hr := hr) hju (junk := jg) (junk' := jg) hjg
  have hR := pr.stores hu hj hu' hj' hji hje
  obtain ⟨t', e', hs, hf⟩ := StCount.build_filed hG hR hjp hL h hb hc e
  refine ⟨t', e', fun before hm => ?_⟩
  obtain ⟨t1, e1, hs1⟩ := hs.of_lookups fun p hpm => hans p (hm p hpm)
  have hsave := StCount.lookups_save (jp := jp) (c := c) hG.keeps hR.keeps e1
  obtain ⟨t2, e2, hs2, hl, l1, l2, l3, l4⟩ := hf.load hs
  obtain ⟨k1, k2⟩ := StCount.lookups_key (kg := (GramsFile.data (GramsData.fastEF hr c' ju) jg).save) (kr := (pr.file junkU junkD ji je).save) hG.keeps hR.keeps e1
  have hl1 := loaded_of_key hl k1
  obtain ⟨m1, m2⟩ := TrieCount.build_sizes e
  have hmin := h.order_min
  have hord : t'.order = (files.map List.length).length := by rw [hs.order, m1, List.length_map]
  refine ⟨t1, e1, t2, _, by rw [hsave]; exact C36_file e2 header, by rw [hsave], _, rfl, ?_, fun qs vs t3 e3 => count_same (fastEF_keeps _ _ _) (pefRanks_keeps _ _ pr) e3 _⟩
  have := count_sizes (N := N) (fastEF_exact (jg := jg)) (pefRanks_exact junkU' junkD' ji je pr) rfl (c := c) (t := t1) (t2 := t2) (sizes := files.map List.length)
    (by intro e; have := congrArg List.length e; simp at this; rw [this] at hmin; simp at hmin) (by rw [k2]; exact hord)
    (by rw [k2]; exact hf.countsLen.trans hord) (by rw [hs1.sizes, m2]) (files_sum h) hl1 (by rw [k2]; exact l1) (by rw [k2]; exact l3) (by rw [k2]; exact l4) header
  have hvoc : t1.voc.h = hv := by rw [k2]; show t'.voc.h = hv; exact build_voc e'
  rw [hvoc] at this
  rw [← hsave]
  exact this

open Sizes PefSizes in
/-- **C54** for backoff tries over `uniform_pef_sequence` grams: built, used for any scoring that C55 covers, saved, and loaded by `print_stats`,
and also after any further scoring (`Spec.BackoffSizes`); 57 bytes are counted for the grams and 24 for the ranks of the first order, which do not
exist in the file. -/
theorem C54_pef_backoff_trie {K V N : Type} [DecidableEq K] [FloatArith V] [Mul N] [Div N] [NatCast N]
    (fb : FloatBits V) {sort : List V → List V} (hsort : ∀ l, (sort l).Perm l ∧ (sort l).Pairwise (· ≤ ·))
    (negInf : V) (unkWord : K) (default unk : V) {U : List K} {data : List (List (List K × V × V))} {ro pb bb : Nat}
    (h : Spec.ProbFiles U data ro) (hp : Spec.PefFiles U (TrieProb.asCounts data) ro) (hq : Spec.Quantisable data pb bb) (hbits : pb + bb ≤ 58)
    (hfb : ∀ f0, data[0]? = some f0 → ∀ r ∈ f0, fb.dec (fb.enc r.2.1) = r.2.1 ∧ fb.dec (fb.enc r.2.2) = r.2.2)
    (hcb : ∀ ps bs, Quant.codebooks sort negInf pb bb data = some (.ok (ps, bs)) → ∀ l ∈ ps ++ bs, ∀ x ∈ l, Spec.IsFloat fb x)
    (hunk : Spec.IsFloat fb (Spec.unkProb unkWord default (data.getD 0 []) unk))
    {hv : Mphf K 64} (hb : hv.BuiltFrom U) {c : Emphf K 64} (hc : Spec.EmphfReads c hv)
    {junkU junkD junk junkU' junkD' junk' : Nat → List W} (hu : ∀ k, junkU k ≠ []) (hjd : ∀ k, junkD k ≠ []) (hj : ∀ k, junk k ≠ [])
    (hu' : ∀ k, junkU' k ≠ []) (hjd' : ∀ k, junkD' k ≠ []) (hj' : ∀ k, junk' k ≠ []) {jr : CompactVector} {jp : EF} (hjr : jr.Fits) (hjp : jp.Fits)
    (header : Byte) :
    ∃ t, StProb.build fb sort negInf unkWord default hv (GramsSt.pef junkU junkD) (RanksData.cv.st junk) ro unk pb bb data = some (.ok t) ∧
      ∀ (m : Nat) (ops : List (Nat × Option K)) (d : Nat) (one : V), (∀ o ∈ ops, o.1 < m) →
        Spec.SessionGrams (Spec.PefScorable hv U data ro) ops (fun _ => []) →
        ∃ scores t1, t.session fb d one m ops = some (scores, t1) ∧
          ∃ t2 n, loadFile (StProb.load (GramsFile.pef junkU' junkD') (RanksFile.data RanksData.cv junk' jr) fb c)
              (saveFile header (t1.save (GramsFile.pef junkU junkD) (RanksFile.data RanksData.cv junk jr) jp fb c bb)) = some (t2, n) ∧
            n = (saveFile header (t1.save (GramsFile.pef junkU junkD) (RanksFile.data RanksData.cv junk jr) jp fb c bb)).length ∧
            ∃ p : ProbPrinted N, t2.printSizes (GramsMeasure.pef junkU' junkD').bytes (ranksOf RankBytes.cv junk') n = p ∧
              Spec.BackoffSizes (StArray.parts (GramsFile.pef junkU junkD) (RanksFile.data RanksData.cv junk jr) jp (t1.voc.save c) t1.arrs)
                (saveQuantized fb t1.pb t1.ps) (saveQuantized fb bb t1.bs) 2 1 57 24 (Spec.hashFunctionBytes c hv) (fun _ => 0) (data.map List.length) n p ∧
              ∀ m ops d one scores t3, t2.session fb d one m ops = some (scores, t3) →
                t3.printSizes (GramsMeasure.pef junkU' junkD').bytes (ranksOf RankBytes.cv junk') n = p := by
  obtain ⟨tq, qp, qb, a1, -, a2⟩ := C36_pef_trie_prob_through_a_file fb hsort negInf unkWord default unk h hp hq hbits hfb hcb hunk hb hc hu hjd hj
    hu' hjd' hj' hjr hjp header
  obtain ⟨ps, bs, e1, e2, e3⟩ := Quant.codebooks_ok hsort negInf h.arpa.order_min hq
  have hlen : ∀ f ∈ data, f.length < 2 ^ 56 := by
    intro f hf
    have := TrieCount.len_of_size (TrieProb.asCounts_ok h) (f := f.map fun r => (r.1.reverse, 0)) (List.mem_map.2 ⟨f, hf, rfl⟩)
    rwa [List.length_map] at this
  obtain ⟨t, f1, f2, f3⟩ := TrieProb.build_any fb negInf unkWord default unk h hb (G := PefTrie.ideal) (J := RanksData.cv.ideal)
    (ex := PefTrie.ClearAt U (data.map (·.map (·.1.reverse))) ro)
    (fun k prev curr h1 h2 => by
      have := PefTrie.grams_exact (TrieProb.asCounts_ok h) hp k prev curr
      rw [TrieProb.asCounts_map] at this
      exact this h1 h2)
    (fun k f rs hf hl hr => by
      have := hlen f (List.mem_of_getElem? hf)
      refine RanksData.ideal_exact ⟨fun mem hm => ?_, fun d e => CompactVector.buildFrom_fits (Res.lift_ok_iff e) (by rw [List.length_map]; omega)⟩
      rw [RanksData.cv_impl]
      exact TrieImpl.cv_exact (junk := fun _ => mem) hm hr) hbits e1 e2
  have hd : data[0]? = some (data.getD 0 []) := by
    rw [List.getD_eq_getElem?_getD, List.getElem?_eq_getElem (by have := h.arpa.order_min; omega)]; rfl
  rw [← findUnk_spec unkWord default _ unk (h.arpa.distinct _ (List.mem_of_getElem? hd))] at hunk
  have hG := GramsFile.pef_stores hu hjd hu' hjd'
  have hR := RanksFile.data_stores (R := RanksData.cv) .cv hj hj' (junk := jr) (junk' := jr) hjr
  have hpow := hq.probs.2
  obtain ⟨t', b1, hs, hf⟩ := StProb.build_filed hG hR hjp fb h (by omega) hb hc hcb hunk f1
  rw [a1] at b1
  cases b1
  refine ⟨tq, a1, fun m ops d one hops hV => ?_⟩
  obtain ⟨t1, g1, g2, -⟩ := a2 m ops d one hops hV
  obtain ⟨t2, r2, hs2, hl, l1⟩ := hf.load (by omega : bb < 256) hs
  obtain ⟨k1, k2⟩ := StProb.session_key (kg := (GramsFile.pef junkU junkD).save) (kr := (RanksFile.data RanksData.cv junk jr).save) hG.keeps hR.keeps g1
  have hl1 := loaded_of_key hl k1
  obtain ⟨m1, m2⟩ := prob_build_sizes f1
  have hord : tq.order = (data.map List.length).length := by rw [hs.order, m1, List.length_map]
  have hmin := h.arpa.order_min
  have hsizes : t1.arrs.map (·.size) = data.map List.length := by
    have := congrArg (List.map Prod.fst) k1
    rw [List.map_map, List.map_map] at this
    exact (show t1.arrs.map (·.size) = tq.arrs.map (·.size) from this).trans ((prob_sim_sizes hs).trans m2)
  have hsum : (data.map List.length).sum < 2 ^ 64 := by
    have := files_sum (TrieProb.asCounts_ok h)
    have e : (TrieProb.asCounts data).map List.length = data.map List.length := by
      unfold TrieProb.asCounts
      rw [List.map_map]
      apply List.map_congr_left
      intro x _
      exact List.length_map _
    rwa [e] at this
  refine ⟨_, t1, g1, t2, _, by rw [g2]; exact C36_file r2 header, by rw [g2], _, rfl, ?_, fun m ops d one scores t3 e3 => prob_same (pef_keeps _ _) (data_keeps _ _) e3 _⟩
  have := prob_sizes (N := N) (fb := fb) (bb := bb) (pef_exact junkU' junkD') (data_exact exact_cv junk' jr) rfl (c := c) (t := t1) (t2 := t2) (sizes := data.map List.length)
    (by intro e; have := congrArg List.length e; simp at this; rw [this] at hmin; simp at hmin)
    (by rw [k2]; show tq.ps.length = _; rw [hf.psLen, hord]) (by rw [k2]; show tq.bs.length = _; rw [hf.bsLen, hord]) hsizes hsum hl1 (by rw [k2]; exact l1) header
  have hvoc : t1.voc.h = hv := by rw [k2]; show tq.voc.h = hv; exact build_probVoc a1
  rw [hvoc] at this
  rw [← g2]
  exact this


namespace PefSizesExample
open TrieCountExample PefTrieExample TrieProbExample PefProbExample PefSaveExample PefStatsExample

/-- The hypotheses of the three theorems are met. -/
example := C54_pef_count_trie (N := ℚ) exLib_valid (files4_ok 2 (by omega)) files4_pef
  MphExample.built voc_read (junkU := fun _ => [7]) (junkD := fun _ => [9]) (junkU' := fun _ => [1, 5]) (junkD' := fun _ => [3])
  (by simp) (by simp) (by simp) (by simp) (.pspef true) (by simp [files4, PefRanks.maxLines]) ic_fits SaveExample.ptrs_fits noPtrs_fits 9#8

example := C54_ef_count_trie (N := ℚ) exLib_valid (files4_ok 1 (by omega))
  MphExample.built voc_read hashes4 (c' := SaveExample.codec) (fun _ => ⟨SaveExample.hashers.1, SaveExample.pairs (by decide) (by decide)⟩)
  SaveExample.junk_fits (jg := ⟨SaveExample.ptrs, none, [1, 2]⟩) (SaveExample.fef_fits [1, 2] (by decide) (by decide))
  (junkU := fun _ => [7]) (junkD := fun _ => [9]) (junkU' := fun _ => [1, 5]) (junkD' := fun _ => [3]) (by simp) (by simp) (by simp) (by simp)
  (.pspef false) (by simp [files4, PefRanks.maxLines]) ic_fits SaveExample.ptrs_fits noPtrs_fits 9#8

example := C54_pef_backoff_trie (N := ℚ) EndExample.fb8 sortQ_ok (-1000) 9 (-100) (-100)
  (dataP_ok 0 (by omega)) (dataP_pef 0 (by omega)) dataP_quant (by decide)
  (by
    intro f0 hf r hr
    simp [dataP] at hf; subst hf
    simp at hr
    rcases hr with rfl | rfl | rfl <;> exact ⟨by decide +kernel, by decide +kernel⟩)
  codesP (EndExample.fb8_ok (by simp [Spec.unkProb, dataP])) MphExample.built voc_read
  (junkU := fun _ => [7]) (junkD := fun _ => [9]) (junk := fun _ => [0#64]) (junkU' := fun _ => [1, 5]) (junkD' := fun _ => [3])
  (junk' := fun _ => [4#64]) (by simp) (by simp) (by simp) (by simp) (by simp) (by simp)
  (jr := SaveExample.cvJunk) (by simp [SaveExample.cvJunk, CompactVector.Fits]) noPtrs_fits 9#8

/-- What is printed for a small trie over `uniform_pef_sequence` (3 unigrams, 4 bigrams) that was just built: the grams take 65 bytes; those of the
first order, that do not exist, are counted as 57 more. -/
example : (Option.bind (StCount.build exLib MphExample.mphf (GramsSt.pef (fun _ => [7]) fun _ => [9]) ((PefRanks.pspef true).stored (fun _ => [7]) fun _ => [9])
      0 files2) fun
    | .ok s =>
      let p : Sizes.TriePrinted ℚ := s.printSizes (Sizes.GramsMeasure.pef _ _).bytes (Sizes.pefRanks _ _ (.pspef true)) 700
      some [p.vocab, p.values, p.grams.bytes, p.ranks.bytes, p.ptrs.bytes, (p.levels.map fun l => (l.grams.map Prod.fst).getD 0).sum]
    | .error () => none) = some [56, 64, 122, 146, 196, 65] := by decide +kernel

end PefSizesExample

end Tongrams
