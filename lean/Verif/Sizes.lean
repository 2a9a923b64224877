import Verif.Stats
set_option linter.unusedSectionVars false

/-! # Numbers of bytes: `bytes()`, `data_bytes()` and what `print_stats` prints of them

`print_stats` loads a model from a file (print_stats.cpp:12-17) and prints how many bytes its parts take.  Here: how these numbers
relate to the file. -/
namespace Tongrams

/-! ## The code -/

/-- `bit_vector::bytes`, bit_vector.hpp:233-235. -/
def BitVector.bytes (b : BitVector) : Nat := 8 + b.bits.length * 8

/-- `compact_vector::bytes`, compact_vector.hpp:294-297. -/
def CompactVector.bytes (c : CompactVector) : Nat := c.bits.length * 8 + 8 + 8 + 8

/-- `hash_compact_vector::bytes`, hash_compact_vector.hpp:160-163; `hash_t` has `B` bits. -/
def HCV.bytes {B : Nat} (c : HCV B) : Nat := 8 + 8 + 8 + c.bits.length * (B / 8)

/-- `compact_triplets_vector::bytes`, compact_triplets_vector.hpp:93-96. -/
def CTVec.bytes (c : CTVec) : Nat := 8 + 8 + 8 + 8 + c.bits.bytes

/-- `darray::bytes`, darray.hpp:94-98; `essentials::vec_bytes` counts the elements and the number of elements. -/
def DArray.bytes (d : DArray) : Nat := 8 + (d.blockInv.length * 8 + 8) + (d.subInv.length * 2 + 8) + (d.overflow.length * 8 + 8)

/-- `ef_sequence::bytes`, ef_sequence.hpp:120-123; the index of the zeros is empty. -/
def EF.bytes (e : EF) : Nat := 1 + e.high.bytes + e.d1.bytes + DArray.empty.bytes + e.low.bytes + 8

/-- `indexed_codewords_sequence::bytes`, indexed_codewords_sequence.hpp:114-117. -/
def ICSeq.bytes (s : ICSeq) : Nat := 8 + s.codewords.bytes + s.index.bytes + s.d1.bytes

/-- `prefix_summed_sequence::bytes`, prefix_summed_sequence.hpp:33-35. -/
def PSEF.bytes (e : EF) : Nat := 8 + e.bytes

/-- `uniform_pef_sequence::bytes`, uniform_pef_sequence.hpp:486-490. -/
def PEF.bytes (f : PEF) : Nat := 8 + 8 + 8 + f.upper.bytes + f.data.bytes + 1

/-- `uint_mpht::data_bytes`, mph_tables.hpp:328-330. -/
def UTable.dataBytes {K : Type} {B : Nat} (t : UTable K B) : Nat := t.values.bytes

/-- `single_valued_mpht::data_bytes`, mph_tables.hpp:97-99. -/
def SVTable.dataBytes {K : Type} {B : Nat} (t : SVTable K B) : Nat := t.data.bytes

/-- `double_valued_mpht::data_bytes`, mph_tables.hpp:242-244. -/
def DVTable.dataBytes {K : Type} {B : Nat} (t : DVTable K B) : Nat := t.data.bytes

/-- `fast_ef_sequence::bytes`, `samplings_bytes`, fast_ef_sequence.hpp:217-224; a table of offsets that was not built is empty
(compact_vector.hpp:215). -/
def FastEF.bytes (f : FastEF) : Nat :=
  8 + f.ef.high.bytes + f.ef.d1.bytes + f.ef.low.bytes + 1 +
    (f.samplings.length * 8 + (f.offsets.map UTable.dataBytes).getD (CompactVector.bytes ⟨0, 0, 0, []⟩))

/-- `sequence_collection::bytes`, sequence_collections.hpp:294-300. -/
def countsBytes (cs : List CompactVector) : Nat := (cs.map CompactVector.bytes).sum

/-- `quantized_sequence_collection::bytes`, sequence_collections.hpp:144-150; as many numbers of bits as sequences. -/
def quantizedBytes {P : Type} (cs : List (List P)) : Nat := cs.length * 1 + (cs.map fun s => s.length * 4).sum

/-- The three ways of storing ranks and their `bytes()`. -/
structure RankBytes (R : RanksData) where
  bytes : R.E → Nat
  /-- of an object that was not built -/
  empty : Nat

/-- indexed_codewords_sequence.hpp:114-117; the default is empty (indexed_codewords_sequence.hpp:10). -/
def RankBytes.ic : RankBytes RanksData.ic := ⟨ICSeq.bytes, ICSeq.bytes ⟨0, ⟨0, []⟩, ⟨0, []⟩, DArray.empty⟩⟩

/-- prefix_summed_sequence.hpp:33-35; the default is empty (prefix_summed_sequence.hpp:9). -/
def RankBytes.psef : RankBytes RanksData.psef := ⟨PSEF.bytes, PSEF.bytes ⟨0, 0, ⟨0, []⟩, DArray.empty, ⟨0, []⟩⟩⟩

/-- compact_vector.hpp:294-297; the default is empty (compact_vector.hpp:215). -/
def RankBytes.cv : RankBytes RanksData.cv := ⟨CompactVector.bytes, CompactVector.bytes ⟨0, 0, 0, []⟩⟩

namespace Sizes

/-- `sorted_array::grams_bytes`, sorted_array.hpp:172-174; an object that was not built is empty (fast_ef_sequence.hpp:24). -/
def gramsBytes {h : Nat → Mphf Nat 64} {c : Emphf Nat 64} {junk : UTable Nat 64} {R : RanksData}
    (a : ArrayStore (GramsData.fastEF h c junk) R) : Nat :=
  match a.grams with
  | some f => FastEF.bytes f
  | none => FastEF.bytes ⟨⟨0, 0, ⟨0, []⟩, DArray.empty, ⟨0, []⟩⟩, none, []⟩

/-- `sorted_array::counts_ranks_bytes`, `probs_backoffs_ranks_bytes`, sorted_array.hpp:176-182. -/
def ranksBytes {G : GramsData} {R : RanksData} (rb : RankBytes R) (a : ArrayStore G R) : Nat :=
  match a.ranks with
  | some r => rb.bytes r
  | none => rb.empty

/-- `sorted_array::pointers_bytes`, sorted_array.hpp:184-186, pointer_sequence.hpp:35-37. -/
def ptrsBytes {G : GramsData} {R : RanksData} (a : ArrayStore G R) : Nat :=
  match a.ptrs with
  | some e => e.bytes
  | none => EF.bytes ⟨0, 0, ⟨0, []⟩, DArray.empty, ⟨0, []⟩⟩

/-- A number of bytes with the percentage of the whole and the number per n-gram. -/
structure Share (F : Type) where
  bytes : Nat
  percent : F
  perGram : F

section
variable {F : Type} [Mul F] [Div F] [NatCast F]

/-- `x * 100.0 / bytes` and `double(x) / num_grams`, stats.cpp:347-359, 407-423. -/
def share (total num x : Nat) : Share F := ⟨x, (x : F) * ((100 : Nat) : F) / (total : F), (x : F) / (num : F)⟩

/-- What is printed for one order of a count trie, stats.cpp:312-331: grams and pointers only where they exist. -/
structure TrieLevel (F : Type) where
  grams : Option (Nat × F)
  ranks : Nat × F
  ptrs : Option (Nat × F)

/-- The numbers of bytes printed for a count trie, stats.cpp:301-359. -/
structure TriePrinted (F : Type) where
  levels : List (TrieLevel F)
  total : Nat
  perGram : F
  vocab : Nat
  values : Nat
  grams : Share F
  ranks : Share F
  ptrs : Share F

/-- The loop of stats.cpp:310-336 for a count trie; `i` is its counter. -/
def countLevels {h : Nat → Mphf Nat 64} {c : Emphf Nat 64} {junk : UTable Nat 64} {R : RanksData} (rb : RankBytes R) (order : Nat) :
    Nat → List (ArrayStore (GramsData.fastEF h c junk) R) → List (TrieLevel F)
  | _, [] => []
  | i, a :: as =>
    { grams := if i ≠ 1 then some (gramsBytes a, (gramsBytes a : F) / (a.size : F)) else none
      ranks := (ranksBytes rb a, (ranksBytes rb a : F) / (a.size : F))
      ptrs := if i ≠ order then some (ptrsBytes a, (ptrsBytes a : F) / (a.size : F)) else none } :: countLevels rb order (i + 1) as

/-- The numbers of bytes printed for a backoff trie, stats.cpp:377-423: for each order grams, ranks and pointers. -/
structure ProbPrinted (F : Type) where
  levels : List (Nat × Nat × Nat)
  total : Nat
  perGram : F
  vocab : Nat
  probs : Nat
  backoffs : Nat
  grams : Share F
  ranks : Share F
  ptrs : Share F

/-- The numbers of bytes printed for a hash model, stats.cpp:13-99: `values` the collections (one for counts; probabilities and
backoffs), `tables` the data of the tables. -/
structure HashPrinted (F : Type) where
  order : Nat
  numGrams : Nat
  total : Nat
  perGram : F
  values : List Nat
  tables : List Nat
  keys : Share F
  ranks : Share F
  functions : Share F
  bitsPerGram : F

/-- The common part of the two hash models, stats.cpp:22-55, 67-99, with 64-bit subtractions; the keys "per gram" are `hash_key_bytes
/ num_grams` (stats.cpp:38-39, 84-85). -/
def hashPrinted (B order num total : Nat) (values tables : List Nat) : HashPrinted F :=
  let data := (values.sum + tables.sum) % 2 ^ 64
  let keys := B / 8 * num % 2 ^ 64
  let ranks := (data + 2 ^ 64 - keys) % 2 ^ 64
  let functions := (total + 2 ^ 64 - data) % 2 ^ 64
  { order := order, numGrams := num, total := total, perGram := (total : F) / (num : F), values := values, tables := tables
    keys := { (share total num keys : Share F) with perGram := ((B / 8 : Nat) : F) / (num : F) }
    ranks := share total num ranks
    functions := share total num functions
    bitsPerGram := (functions : F) * ((8 : Nat) : F) / (num : F) }

end
end Sizes

/-- `trie_count_lm::print_stats`, the numbers of bytes, stats.cpp:301-359; `size()`, trie_count_lm.hpp:285-291. -/
def TrieCountStore.printSizes {K F : Type} [Mul F] [Div F] [NatCast F] {h : Nat → Mphf Nat 64} {c : Emphf Nat 64} {junk : UTable Nat 64}
    {R : RanksData} (rb : RankBytes R) (s : TrieCountStore K (GramsData.fastEF h c junk) R) (bytes : Nat) : Sizes.TriePrinted F :=
  let num : Nat := (s.arrs.map (·.size)).sum % 2 ^ 64
  { levels := Sizes.countLevels rb s.order 1 s.arrs, total := bytes, perGram := (bytes : F) / (num : F)
    vocab := s.voc.dataBytes, values := countsBytes s.counts
    grams := Sizes.share bytes num ((s.arrs.map Sizes.gramsBytes).sum)
    ranks := Sizes.share bytes num ((s.arrs.map (Sizes.ranksBytes rb)).sum)
    ptrs := Sizes.share bytes num ((s.arrs.map Sizes.ptrsBytes).sum) }

/-- `trie_prob_lm::print_stats`, the numbers of bytes, stats.cpp:377-423; `size()`, trie_prob_lm.hpp:317-323. -/
def TrieProbStore.printSizes {K P F : Type} [Mul F] [Div F] [NatCast F] {h : Nat → Mphf Nat 64} {c : Emphf Nat 64} {junk : UTable Nat 64}
    {R : RanksData} (rb : RankBytes R) (s : TrieProbStore K P (GramsData.fastEF h c junk) R) (bytes : Nat) : Sizes.ProbPrinted F :=
  let num : Nat := (s.arrs.map (·.size)).sum % 2 ^ 64
  { levels := s.arrs.map fun a => (Sizes.gramsBytes a, Sizes.ranksBytes rb a, Sizes.ptrsBytes a), total := bytes
    perGram := (bytes : F) / (num : F), vocab := s.voc.dataBytes, probs := quantizedBytes s.ps, backoffs := quantizedBytes s.bs
    grams := Sizes.share bytes num ((s.arrs.map Sizes.gramsBytes).sum)
    ranks := Sizes.share bytes num ((s.arrs.map (Sizes.ranksBytes rb)).sum)
    ptrs := Sizes.share bytes num ((s.arrs.map Sizes.ptrsBytes).sum) }

/-- `mph_count_lm::print_stats`, stats.cpp:13-56; `size()`, mph_count_lm.hpp:86-92, mph_tables.hpp:89-91, mphf.hpp:72-74. -/
def MphCount.printSizes {F : Type} [Mul F] [Div F] [NatCast F] {B : Nat} (m : MphCount B) (bytes : Nat) : Sizes.HashPrinted F :=
  Sizes.hashPrinted B m.order ((m.tables.map (·.h.n)).sum % 2 ^ 64) bytes [countsBytes m.counts] (m.tables.map (·.dataBytes))

/-- `mph_prob_lm::print_stats`, stats.cpp:58-100; `size()`, mph_prob_lm.hpp:267-273. -/
def MphProb.printSizes {P F : Type} [Mul F] [Div F] [NatCast F] {B : Nat} (m : MphProb P B) (bytes : Nat) : Sizes.HashPrinted F :=
  Sizes.hashPrinted B m.order ((m.tables.map (·.h.n)).sum % 2 ^ 64) bytes [quantizedBytes m.ps, quantizedBytes m.bs]
    (m.tables.map (·.dataBytes))


/-! ## Specification -/

/-- The bytes of a hash function in a file. -/
def Spec.hashFunctionBytes {K : Type} {B : Nat} (c : Emphf K B) (h : Mphf K B) : Nat := (h.save c).length

/-- The bytes in a file of the hash function of the grams of one order, if there are grams. -/
def Spec.gramsFunctionBytes {hr : Nat → Mphf Nat 64} {c : Emphf Nat 64} {junk : UTable Nat 64} {R : RanksData}
    (a : ArrayStore (GramsData.fastEF hr c junk) R) : Nat :=
  match a.grams with
  | some f => match FastEF.offsets f with
    | some t => Spec.hashFunctionBytes c t.h
    | none => 0
  | none => 0

/-! ## Proofs -/
namespace Sizes

theorem length_putU : ∀ k v : Nat, (putU k v).length = k
  | 0, _ => rfl
  | k + 1, v => by rw [putU, List.length_cons, length_putU k]

theorem length_putWord {w : Nat} (k : Nat) (v : BitVec w) : (putWord k v).length = k := length_putU _ _

theorem length_putI (v : Int) : (putI v).length = 8 := length_putU _ _

theorem length_putAll {α : Type} (p : α → List Byte) : ∀ l : List α, (putAll p l).length = (l.map fun x => (p x).length).sum
  | [] => rfl
  | x :: l => by
    have := length_putAll p l
    unfold putAll at this ⊢
    rw [List.flatMap_cons, List.length_append, this, List.map_cons, List.sum_cons]

theorem sum_const {α : Type} (k : Nat) : ∀ l : List α, (l.map fun _ => k).sum = l.length * k
  | [] => by simp
  | x :: l => by rw [List.map_cons, List.sum_cons, sum_const k l, List.length_cons, Nat.add_mul]; omega

theorem length_putVec {α : Type} {p : α → List Byte} {k : Nat} (hp : ∀ x, (p x).length = k) (l : List α) :
    (putVec p l).length = 8 + l.length * k := by
  unfold putVec
  rw [List.length_append, length_putU, length_putAll, ← sum_const k l]
  simp only [hp]

theorem bitVector_length (b : BitVector) : b.save.length = b.bytes + 8 := by
  unfold BitVector.save BitVector.bytes
  rw [List.length_append, length_putU, length_putVec (length_putWord 8)]
  omega

theorem compactVector_length (b : CompactVector) : b.save.length = b.bytes + 8 := by
  unfold CompactVector.save CompactVector.bytes
  simp only [List.length_append, length_putU, length_putWord]
  rw [length_putVec (length_putWord 8)]
  omega

theorem hcv_length {B : Nat} (b : HCV B) : b.save.length = b.bytes + 8 := by
  unfold HCV.save HCV.bytes
  simp only [List.length_append, length_putU, length_putWord]
  rw [length_putVec (length_putWord (B / 8))]
  omega

theorem ctvec_length (b : CTVec) : b.save.length = b.bytes + 8 := by
  unfold CTVec.save CTVec.bytes
  simp only [List.length_append, length_putU, bitVector_length]
  omega

theorem darray_length (d : DArray) : d.save.length = d.bytes := by
  unfold DArray.save DArray.bytes
  simp only [List.length_append, length_putU]
  rw [length_putVec length_putI, length_putVec (length_putWord 2), length_putVec (length_putU 8)]
  omega

theorem ef_length (e : EF) : e.save.length = e.bytes + 16 := by
  unfold EF.save EF.bytes
  simp only [List.length_append, length_putU, bitVector_length, darray_length]
  omega

theorem ic_length (e : ICSeq) : e.save.length = e.bytes + 16 := by
  unfold ICSeq.save ICSeq.bytes
  simp only [List.length_append, length_putU, bitVector_length, darray_length]
  omega

theorem psef_length (e : EF) : (PSEF.save e).length = PSEF.bytes e + 16 := by
  unfold PSEF.save PSEF.bytes
  simp only [List.length_append, length_putU, ef_length]
  omega

theorem pef_length (f : PEF) : f.save.length = f.bytes + 16 := by
  unfold PEF.save PEF.bytes
  simp only [List.length_append, length_putU, bitVector_length, compactVector_length]
  omega

theorem fastEF_length (c : Emphf Nat 64) (junk : UTable Nat 64) (f : FastEF) :
    (f.save c junk).length = FastEF.bytes ⟨f.ef, some (f.offsets.getD junk), f.samplings⟩ + 32 + Spec.hashFunctionBytes c (f.offsets.getD junk).h := by
  unfold FastEF.save FastEF.bytes Spec.hashFunctionBytes UTable.save
  simp only [List.length_append, length_putU, bitVector_length, darray_length, compactVector_length, UTable.dataBytes, Option.map_some,
    Option.getD_some]
  rw [length_putVec (length_putU 8)]
  omega

theorem sv_length {K : Type} {B : Nat} (c : Emphf K B) (t : SVTable K B) :
    (t.save c).length = Spec.hashFunctionBytes c t.h + t.dataBytes + 8 := by
  unfold SVTable.save SVTable.dataBytes Spec.hashFunctionBytes
  rw [List.length_append, hcv_length]
  omega

theorem dv_length {K : Type} {B : Nat} (c : Emphf K B) (t : DVTable K B) :
    (t.save c).length = Spec.hashFunctionBytes c t.h + t.dataBytes + 8 := by
  unfold DVTable.save DVTable.dataBytes Spec.hashFunctionBytes
  rw [List.length_append, ctvec_length]
  omega

theorem counts_length : ∀ cs : List CompactVector, (saveCounts cs).length = countsBytes cs + 8 * cs.length
  | [] => rfl
  | c :: cs => by
    have := counts_length cs
    unfold saveCounts countsBytes at *
    rw [length_putAll] at *
    simp only [List.map_cons, List.sum_cons, List.length_cons, compactVector_length] at *
    omega

theorem quantized_length {P : Type} (fb : FloatBits P) (q : Nat) (cs : List (List P)) :
    (saveQuantized fb q cs).length = quantizedBytes cs + 8 * cs.length := by
  unfold saveQuantized quantizedBytes
  rw [List.length_append, length_putAll, length_putAll]
  simp only [length_putU, sum_const, List.length_replicate]
  have : ∀ l : List P, (putVec (putF fb) l).length = 8 + l.length * 4 := fun l => length_putVec (length_putWord 4 <| fb.enc ·) l
  simp only [this]
  have h : ∀ cs : List (List P), (cs.map fun x => 8 + x.length * 4).sum = (cs.map fun s => s.length * 4).sum + 8 * cs.length := by
    intro cs
    induction cs with
    | nil => rfl
    | cons x cs ih => simp only [List.map_cons, List.sum_cons, List.length_cons, ih]; omega
  rw [h]
  omega

/-- The ranks take `k` vectors. -/
def _root_.Tongrams.RankBytes.Exact {R : RanksData} (rb : RankBytes R) (k : Nat) : Prop := ∀ e, (R.save e).length = rb.bytes e + 8 * k

theorem exact_ic : RankBytes.ic.Exact 2 := ic_length
theorem exact_psef : RankBytes.psef.Exact 2 := psef_length
theorem exact_cv : RankBytes.cv.Exact 1 := compactVector_length

section
variable {R : RanksData} {hr : Nat → Mphf Nat 64} {c : Emphf Nat 64} {junk : UTable Nat 64}

/-- The bytes of one order in the file. -/
structure Sized (rb : RankBytes R) (k : Nat) (j : Junk (GramsData.fastEF hr c junk) R) (order : Nat) (wr : Bool)
    (a a' : ArrayStore (GramsData.fastEF hr c junk) R) : Prop where
  size : a'.size = a.size
  first : order = 1 → gramsBytes a' = 81 ∧ Spec.gramsFunctionBytes a' = 0
  noRanks : wr = false → ranksBytes rb a' = rb.empty
  gramsPart : order ≠ 1 → ((GramsData.fastEF hr c junk).save (a.grams.getD j.grams)).length = gramsBytes a' +
    Spec.hashFunctionBytes c ((FastEF.offsets (a.grams.getD j.grams)).getD junk).h + 32
  ranksPart : wr = true → (R.save (a.ranks.getD j.ranks)).length = ranksBytes rb a' + 8 * k
  ptrsPart : (a.ptrs.getD j.ptrs).save.length = ptrsBytes a' + 16
  bytes : (a.save j order wr).length = 8 + (if order = 1 then 0 else gramsBytes a' + 32 + Spec.gramsFunctionBytes a') +
    (if wr then ranksBytes rb a' + 8 * k else 0) + (ptrsBytes a' + 16)

theorem load_sized (hR : R.Std) {rb : RankBytes R} {k : Nat} (hk : rb.Exact k) {j : Junk (GramsData.fastEF hr c junk) R} {order : Nat} {wr : Bool}
    {a : ArrayStore (GramsData.fastEF hr c junk) R} (h : a.Fits j order wr) :
    ∃ a', Spec.Reads (ArrayStore.load (GramsData.fastEF hr c junk) R order wr) (a.save j order wr) a' ∧ Sized rb k j order wr a a' := by
  obtain ⟨h1, h2, h3, h4, h5, h6⟩ := h
  have hg : ∃ g : Option FastEF, Spec.Reads (if order ≠ 1 then Rd.bind (GramsData.fastEF hr c junk).load fun d => Rd.ret (some d) else Rd.ret none)
      (if order ≠ 1 then (GramsData.fastEF hr c junk).save (a.grams.getD j.grams) else []) g ∧ (order = 1 → g = none) ∧
      (order ≠ 1 → g = some ⟨FastEF.ef (a.grams.getD j.grams), some ((FastEF.offsets (a.grams.getD j.grams)).getD junk),
        FastEF.samplings (a.grams.getD j.grams)⟩) := by
    by_cases ho : order = 1
    · refine ⟨none, ?_, fun _ => rfl, fun hc => absurd ho hc⟩
      rw [if_neg (by simp [ho]), if_neg (by simp [ho])]; exact .ret _
    · have hf := h3 ho
      refine ⟨_, ?_, fun hc => absurd hc ho, fun _ => rfl⟩
      rw [if_pos ho, if_pos ho]; exact .last (C36_fast_ef hf.1 hf.2) rfl
  have hr' : ∃ r : Option R.E, Spec.Reads (if wr then Rd.bind R.load fun d => Rd.ret (some d) else Rd.ret none)
      (if wr then R.save (a.ranks.getD j.ranks) else []) r ∧ (wr = true → r = some (a.ranks.getD j.ranks)) ∧ (wr = false → r = none) := by
    cases hw : wr with
    | false => exact ⟨none, .ret _, by simp, by simp⟩
    | true =>
      refine ⟨some (a.ranks.getD j.ranks), ?_, by simp, by simp⟩
      rw [if_pos rfl, if_pos rfl]
      exact .last ((Codec.std hr c junk hR).ranks _ (h5 hw)) rfl
  obtain ⟨g, g1, g2, g3⟩ := hg
  obtain ⟨r, r1, r2, r3⟩ := hr'
  refine ⟨⟨a.size, g, r, some (a.ptrs.getD j.ptrs)⟩, .bind (getU8 h1) (.bind g1 (.bind r1 (.last (C36_ef_sequence h6) rfl))), rfl, ?_, ?_, ?_, ?_, ?_, ?_⟩
  · intro ho
    cases g2 ho
    exact ⟨rfl, rfl⟩
  · intro hw
    cases r3 hw
    rfl
  · intro ho
    cases g3 ho
    exact (fastEF_length c junk (a.grams.getD j.grams)).trans (Nat.add_right_comm _ _ _)
  · intro hw
    cases r2 hw
    exact hk _
  · exact ef_length _
  · unfold ArrayStore.save
    simp only [List.length_append, length_putU, ef_length]
    have e1 : (if order ≠ 1 then (GramsData.fastEF hr c junk).save (a.grams.getD j.grams) else []).length =
        if order = 1 then 0 else gramsBytes (⟨a.size, g, r, some (a.ptrs.getD j.ptrs)⟩ : ArrayStore (GramsData.fastEF hr c junk) R) + 32 +
          Spec.gramsFunctionBytes (⟨a.size, g, r, some (a.ptrs.getD j.ptrs)⟩ : ArrayStore (GramsData.fastEF hr c junk) R) := by
      by_cases ho : order = 1
      · rw [if_neg (by simp [ho]), if_pos ho]; rfl
      · rw [if_pos ho, if_neg ho]
        cases g3 ho
        exact fastEF_length c junk (a.grams.getD j.grams)
    have e2 : (if wr then R.save (a.ranks.getD j.ranks) else []).length =
        if wr then ranksBytes rb (⟨a.size, g, r, some (a.ptrs.getD j.ptrs)⟩ : ArrayStore (GramsData.fastEF hr c junk) R) + 8 * k else 0 := by
      cases hw : wr with
      | false => rfl
      | true =>
        rw [if_pos rfl, if_pos rfl]
        cases r2 hw
        exact hk _
    rw [e1, e2]
    simp only [ptrsBytes]
    omega

theorem loadFrom_sized (hR : R.Std) {rb : RankBytes R} {v : Nat} (hv : rb.Exact v) {j : Junk (GramsData.fastEF hr c junk) R} :
    ∀ (l : List (ArrayStore (GramsData.fastEF hr c junk) R)) (k : Nat), 1 < k →
    (∀ (i : Nat) (a : ArrayStore (GramsData.fastEF hr c junk) R), l[i]? = some a → a.Fits j (k + i) true) →
    ∃ l', Spec.Reads (ArrayStore.loadFrom (GramsData.fastEF hr c junk) R k l.length) (ArrayStore.saveFrom j k l) l' ∧ l'.length = l.length ∧
      (∀ (i : Nat) (a : ArrayStore (GramsData.fastEF hr c junk) R), l[i]? = some a → ∃ a', l'[i]? = some a' ∧ Sized rb v j (k + i) true a a') ∧
      (ArrayStore.saveFrom j k l).length = (l'.map gramsBytes).sum + (l'.map (ranksBytes rb)).sum + (l'.map ptrsBytes).sum +
        (l'.map Spec.gramsFunctionBytes).sum + (56 + 8 * v) * l.length
  | [], k, _, _ => ⟨[], fun _ => rfl, rfl, fun i a e => by simp at e, rfl⟩
  | a :: l, k, hk, h => by
    obtain ⟨a', e1, e2⟩ := load_sized hR hv (h 0 a rfl)
    obtain ⟨l', e3, e4, e5, e6⟩ := loadFrom_sized hR hv l (k + 1) (by omega) (fun i b hb => by
      have := h (i + 1) b hb
      rwa [show k + 1 + i = k + (i + 1) by omega])
    refine ⟨a' :: l', .bind e1 (.last e3 rfl), by rw [List.length_cons, List.length_cons, e4], ?_, ?_⟩
    · intro i b hb
      cases i with
      | zero => cases hb; exact ⟨_, rfl, e2⟩
      | succ i =>
        have := e5 i b hb
        rwa [show k + 1 + i = k + (i + 1) by omega] at this
    · have := e2.bytes
      rw [if_neg (by omega), if_pos rfl] at this
      simp only [Nat.add_zero] at this
      rw [ArrayStore.saveFrom, List.length_append, this, e6]
      simp only [List.map_cons, List.sum_cons, List.length_cons, Nat.mul_add]
      omega

theorem loadAll_sized (hR : R.Std) {rb : RankBytes R} {v : Nat} (hv : rb.Exact v) {j : Junk (GramsData.fastEF hr c junk) R} {fr : Bool}
    {l : List (ArrayStore (GramsData.fastEF hr c junk) R)} (hne : l ≠ []) (h : Spec.ArraysFit j fr l) :
    ∃ l', Spec.Reads (ArrayStore.loadAll (GramsData.fastEF hr c junk) R fr l.length) (ArrayStore.saveAll j fr l) l' ∧ l'.length = l.length ∧
      (∀ (i : Nat) (a : ArrayStore (GramsData.fastEF hr c junk) R), l[i]? = some a → ∃ a', l'[i]? = some a' ∧
        Sized rb v j (i + 1) (if i = 0 then fr else true) a a') ∧
      (ArrayStore.saveAll j fr l).length + 81 + (if fr then 0 else rb.empty) = (l'.map gramsBytes).sum + (l'.map (ranksBytes rb)).sum + (l'.map ptrsBytes).sum +
        (l'.map Spec.gramsFunctionBytes).sum + 24 + (if fr then 8 * v else 0) + (56 + 8 * v) * (l.length - 1) := by
  obtain ⟨h0, h⟩ := h
  cases l with
  | nil => exact absurd rfl hne
  | cons a l =>
    obtain ⟨a', e1, e2⟩ := load_sized hR hv (h0 a rfl)
    obtain ⟨l', e3, e4, e5, e6⟩ := loadFrom_sized hR hv l 2 (by omega) (fun i b hb => by
      have := h (i + 1) b (by omega) hb
      rwa [show i + 1 + 1 = 2 + i by omega] at this)
    refine ⟨a' :: l', ?_, by rw [List.length_cons, List.length_cons, e4], ?_, ?_⟩
    · rw [List.length_cons, ArrayStore.loadAll, ArrayStore.saveAll]
      exact .bind e1 (.last e3 rfl)
    · intro i b hb
      cases i with
      | zero => cases hb; exact ⟨_, rfl, e2⟩
      | succ i =>
        have := e5 i b hb
        rw [if_neg (by omega)]
        rwa [show 2 + i = i + 1 + 1 by omega] at this
    · have hb := e2.bytes
      rw [if_pos rfl] at hb
      obtain ⟨g1, g2⟩ := e2.first rfl
      rw [ArrayStore.saveAll, List.length_append, hb, e6]
      simp only [List.map_cons, List.sum_cons, List.length_cons, g1, g2, Nat.add_sub_cancel]
      cases hw : fr with
      | true => simp only [if_true]; omega
      | false =>
        have := e2.noRanks hw
        rw [this]
        simp only [Bool.false_eq_true, if_false]
        omega

end
end Sizes


/-! ## C54 -/

/-- `bytes()` of the two kinds of ranks of counts. -/
def CountRanks.bytes : (cr : CountRanks) → RankBytes cr.data
  | .ic => RankBytes.ic
  | .psef => RankBytes.psef

theorem CountRanks.bytes_exact : (cr : CountRanks) → cr.bytes.Exact 2
  | .ic => Sizes.exact_ic
  | .psef => Sizes.exact_psef

/-- The numbers of bytes printed for the order `k + 1` of a trie, against the parts of its file for this order: the grams (with the bytes
of their hash function, about which nothing is printed, and the lengths of 4 vectors, of 8 bytes each; none are written for the first
order), the ranks (with the lengths of `v` vectors; written if `wr`), and the pointers (with the lengths of 2 vectors). -/
def Spec.OrderBytes {hr : Nat → Mphf Nat 64} {c : Emphf Nat 64} {junk : UTable Nat 64} {R : RanksData} (v : Nat) (k : Nat) (wr : Bool)
    (j : Junk (GramsData.fastEF hr c junk) R) (a : ArrayStore (GramsData.fastEF hr c junk) R) (grams ranks ptrs : Nat) : Prop :=
  (k ≠ 0 → ((GramsData.fastEF hr c junk).save (a.grams.getD j.grams)).length =
    grams + Spec.hashFunctionBytes c ((FastEF.offsets (a.grams.getD j.grams)).getD junk).h + 8 * 4) ∧
  (wr = true → (R.save (a.ranks.getD j.ranks)).length = ranks + 8 * v) ∧
  (a.ptrs.getD j.ptrs).save.length = ptrs + 8 * 2

/-- The percentage of the total and the number per n-gram printed beside a number of bytes. -/
def Spec.ShareOf {F : Type} [Mul F] [Div F] [NatCast F] (total num : Nat) (p : Sizes.Share F) : Prop :=
  p.percent = (p.bytes : F) * ((100 : Nat) : F) / (total : F) ∧ p.perGram = (p.bytes : F) / (num : F)

theorem Sizes.countLevels_get {F : Type} [Mul F] [Div F] [NatCast F] {h : Nat → Mphf Nat 64} {c : Emphf Nat 64} {junk : UTable Nat 64}
    {R : RanksData} (rb : RankBytes R) (order : Nat) : ∀ (l : List (ArrayStore (GramsData.fastEF h c junk) R)) (i k : Nat)
    (a : ArrayStore (GramsData.fastEF h c junk) R), l[k]? = some a →
    (Sizes.countLevels rb order i l : List (Sizes.TrieLevel F))[k]? = some
      { grams := if i + k ≠ 1 then some (Sizes.gramsBytes a, (Sizes.gramsBytes a : F) / (a.size : F)) else none
        ranks := (Sizes.ranksBytes rb a, (Sizes.ranksBytes rb a : F) / (a.size : F))
        ptrs := if i + k ≠ order then some (Sizes.ptrsBytes a, (Sizes.ptrsBytes a : F) / (a.size : F)) else none }
  | [], _, _, _, h => by simp at h
  | b :: l, i, 0, a, h => by cases h; rfl
  | b :: l, i, k + 1, a, h => by
    have := Sizes.countLevels_get (F := F) rb order l (i + 1) k a h
    rw [show i + 1 + k = i + (k + 1) by omega] at this
    exact this

theorem Sizes.countLevels_length {F : Type} [Mul F] [Div F] [NatCast F] {h : Nat → Mphf Nat 64} {c : Emphf Nat 64} {junk : UTable Nat 64}
    {R : RanksData} (rb : RankBytes R) (order : Nat) : ∀ (l : List (ArrayStore (GramsData.fastEF h c junk) R)) (i : Nat),
    (Sizes.countLevels rb order i l : List (Sizes.TrieLevel F)).length = l.length
  | [], _ => rfl
  | b :: l, i => by rw [Sizes.countLevels, List.length_cons, Sizes.countLevels_length rb order l, List.length_cons]

theorem Sizes.countLevels_ranks {F : Type} [Mul F] [Div F] [NatCast F] {h : Nat → Mphf Nat 64} {c : Emphf Nat 64} {junk : UTable Nat 64}
    {R : RanksData} (rb : RankBytes R) (order : Nat) : ∀ (l : List (ArrayStore (GramsData.fastEF h c junk) R)) (i : Nat),
    ((Sizes.countLevels rb order i l : List (Sizes.TrieLevel F)).map (·.ranks.1)) = l.map (Sizes.ranksBytes rb)
  | [], _ => rfl
  | b :: l, i => by rw [Sizes.countLevels, List.map_cons, Sizes.countLevels_ranks rb order l, List.map_cons]

theorem Sizes.countLevels_grams {F : Type} [Mul F] [Div F] [NatCast F] {h : Nat → Mphf Nat 64} {c : Emphf Nat 64} {junk : UTable Nat 64}
    {R : RanksData} (rb : RankBytes R) (order : Nat) : ∀ (l : List (ArrayStore (GramsData.fastEF h c junk) R)) (i : Nat), 1 < i →
    ((Sizes.countLevels rb order i l : List (Sizes.TrieLevel F)).map fun y => (y.grams.map Prod.fst).getD 0) = l.map Sizes.gramsBytes
  | [], _, _ => rfl
  | b :: l, i, hi => by
    rw [Sizes.countLevels, List.map_cons, Sizes.countLevels_grams rb order l (i + 1) (by omega), List.map_cons]
    simp only [if_pos (by omega : i ≠ 1), Option.map_some, Option.getD_some]

theorem Sizes.countLevels_ptrs {F : Type} [Mul F] [Div F] [NatCast F] {h : Nat → Mphf Nat 64} {c : Emphf Nat 64} {junk : UTable Nat 64}
    {R : RanksData} (rb : RankBytes R) (order : Nat) : ∀ (l : List (ArrayStore (GramsData.fastEF h c junk) R)) (i : Nat), i + l.length = order + 1 →
    ∀ a, l.getLast? = some a →
    ((Sizes.countLevels rb order i l : List (Sizes.TrieLevel F)).map fun y => (y.ptrs.map Prod.fst).getD 0).sum + Sizes.ptrsBytes a = (l.map Sizes.ptrsBytes).sum
  | [], _, _, a, ha => by simp at ha
  | [b], i, hi, a, ha => by
    have ha : b = a := Option.some.inj ha
    subst ha
    rw [List.length_singleton] at hi
    rw [Sizes.countLevels, Sizes.countLevels, List.map_cons]
    simp only [if_neg (by omega : ¬ i ≠ order), Option.map_none, Option.getD_none, List.map_nil, List.sum_cons, List.sum_nil, List.map_cons]
    omega
  | b :: b' :: l, i, hi, a, ha => by
    have := Sizes.countLevels_ptrs (F := F) rb order (b' :: l) (i + 1) (by simp only [List.length_cons] at hi ⊢; omega) a (by rw [List.getLast?_cons_cons] at ha; exact ha)
    rw [Sizes.countLevels, List.map_cons, List.sum_cons, List.map_cons, List.sum_cons, ← this]
    simp only [List.length_cons] at hi
    simp only [if_pos (by omega : i ≠ order), Option.map_some, Option.getD_some]
    omega

theorem Sizes.buildVocab_h {K : Type} {hv : Mphf K 64} {words : List K} {t : SVTable K 64} (e : buildVocab hv words = some t) : t.h = hv := by
  unfold buildVocab at e
  obtain ⟨_, -, e⟩ := Option.bind_eq_some_iff.1 e
  obtain ⟨_, -, e⟩ := Option.bind_eq_some_iff.1 e
  unfold SVTable.build at e
  obtain ⟨_, -, e⟩ := Option.bind_eq_some_iff.1 e
  obtain ⟨_, -, e⟩ := Option.bind_eq_some_iff.1 e
  obtain ⟨_, -, rfl⟩ := Option.map_eq_some_iff.1 e
  rfl

theorem Sizes.buildProbVocab_h {K P : Type} {fb : FloatBits P} {hv : Mphf K 64} {words : List K} {vals : List (P × P)} {t : DVTable K 64}
    (e : buildProbVocab fb hv words vals = some t) : t.h = hv := by
  unfold buildProbVocab at e
  obtain ⟨_, -, e⟩ := Option.bind_eq_some_iff.1 e
  obtain ⟨_, -, e⟩ := Option.bind_eq_some_iff.1 e
  obtain ⟨_, -, e⟩ := Option.bind_eq_some_iff.1 e
  obtain ⟨_, -, e⟩ := Option.bind_eq_some_iff.1 e
  unfold DVTable.build at e
  obtain ⟨_, -, e⟩ := Option.bind_eq_some_iff.1 e
  obtain ⟨_, -, e⟩ := Option.bind_eq_some_iff.1 e
  obtain ⟨_, -, e⟩ := Option.bind_eq_some_iff.1 e
  obtain ⟨_, -, rfl⟩ := Option.map_eq_some_iff.1 e
  rfl

theorem Sizes.sum_sizes {α : Type} {G : GramsData} {R : RanksData} {l : List (ArrayStore G R)} {files : List (List α)} (h1 : l.length = files.length)
    (h2 : ∀ (k : Nat) (f : List α), files[k]? = some f → ∃ a, l[k]? = some a ∧ a.size = f.length)
    (h3 : (files.map List.length).sum < 2 ^ 64) : (l.map (·.size)).sum % 2 ^ 64 = (files.map List.length).sum := by
  have : l.map (·.size) = files.map List.length := by
    apply List.ext_getElem?
    intro k
    rw [List.getElem?_map, List.getElem?_map]
    cases hf : files[k]? with
    | none =>
      rw [List.getElem?_eq_none (by rw [h1]; exact List.getElem?_eq_none_iff.1 hf)]; rfl
    | some f =>
      obtain ⟨a, e1, e2⟩ := h2 k f hf
      rw [e1, Option.map_some, Option.map_some, e2]
  rw [this, Nat.mod_eq_of_lt h3]

theorem Sizes.files_sum {K : Type} [DecidableEq K] {U : List K} {files : List (List (List K × Nat))} {ro : Nat} (h : Spec.CountFiles U files ro) :
    (files.map List.length).sum < 2 ^ 64 := by
  have := Stats.sum_le_mul (n := 2 ^ 56) (files.map List.length) (by
    intro x hx
    obtain ⟨f, hf, rfl⟩ := List.mem_map.1 hx
    exact Nat.le_of_lt (TrieCount.len_of_size h hf))
  rw [List.length_map] at this
  have h8 := h.order_max
  omega

/-- C54 for count tries: built from the files, saved, and loaded by `print_stats`.  The total printed is the length of the file; for
each order the numbers of bytes of grams (not printed for the first order), of ranks and of pointers (not printed for the last) are
those of the part of the file for this order; and the numbers account for every byte of the file: vocabulary data, distinct
values, the three totals, the hash functions (about which nothing is printed), three one-byte numbers and `10 order - 3` numbers of 8
bytes.  The total of the grams also counts 81 bytes for the grams of the first order, which do not exist in the file. -/
theorem C54_count_trie {K F : Type} [DecidableEq K] [Mul F] [Div F] [NatCast F] {L : SortLib} (hL : L.Valid) {U : List K}
    {files : List (List (List K × Nat))} {ro : Nat} (h : Spec.CountFiles U files ro) {hv : Mphf K 64} (hb : hv.BuiltFrom U)
    {hr : Nat → Mphf Nat 64} (hh : Spec.RangeHashes hr files) (cr : CountRanks) (hcr : cr = .psef → ∀ f ∈ files, f.length < 2 ^ 32)
    {c : Emphf K 64} (hc : Spec.EmphfReads c hv) {c' : Emphf Nat 64} (hc' : ∀ k, Spec.EmphfReads c' (hr k)) {junk : UTable Nat 64}
    (hju : junk.Fits c') {j : Junk (GramsData.fastEF hr c' junk) cr.data} (hj1 : FastEF.Fits c' j.grams) (hj2 : cr.data.fits j.ranks)
    (hj3 : j.ptrs.Fits) (header : Byte) :
    ∃ s s' : TrieCountStore K (GramsData.fastEF hr c' junk) cr.data, TrieCountStore.build L hv _ _ ro files = some (.ok s) ∧
      ∃ n, loadFile (TrieCountStore.load (GramsData.fastEF hr c' junk) cr.data c) (saveFile header (s.save c j)) = some (s', n) ∧
      n = (saveFile header (s.save c j)).length ∧
      ∃ p : Sizes.TriePrinted F, s'.printSizes cr.bytes n = p ∧ p.total = n ∧ p.levels.length = files.length ∧
        (∀ (k : Nat) (f : List (List K × Nat)), files[k]? = some f → ∃ a grams ranks ptrs,
          s.arrs[k]? = some a ∧ Spec.OrderBytes 2 k true j a grams ranks ptrs ∧
          p.levels[k]? = some { grams := if k = 0 then none else some (grams, (grams : F) / (f.length : F))
                                ranks := (ranks, (ranks : F) / (f.length : F))
                                ptrs := if k + 1 = files.length then none else some (ptrs, (ptrs : F) / (f.length : F)) }) ∧
        ((s.voc.save c).length = p.vocab + Spec.hashFunctionBytes c hv + 8 ∧ (saveCounts s.counts).length = p.values + 8 * files.length ∧
          p.grams.bytes = (p.levels.map fun l => (l.grams.map Prod.fst).getD 0).sum + 81 ∧ p.ranks.bytes = (p.levels.map (·.ranks.1)).sum ∧
          ∃ a, s.arrs[files.length - 1]? = some a ∧
            p.ptrs.bytes + 8 * 2 = (p.levels.map fun l => (l.ptrs.map Prod.fst).getD 0).sum + (a.ptrs.getD j.ptrs).save.length) ∧
        (Spec.ShareOf n (files.map List.length).sum p.grams ∧ Spec.ShareOf n (files.map List.length).sum p.ranks ∧
          Spec.ShareOf n (files.map List.length).sum p.ptrs ∧ p.perGram = (n : F) / ((files.map List.length).sum : F)) ∧
        n + 81 = p.vocab + p.values + p.grams.bytes + p.ranks.bytes + p.ptrs.bytes + Spec.hashFunctionBytes c hv +
          (s'.arrs.map Spec.gramsFunctionBytes).sum + 3 + 8 * (10 * files.length - 3) := by
  obtain ⟨s, e1, e2, e3, e4⟩ := Stats.count_laid (c' := c') (junk := junk) hL h hb hh cr hcr
  obtain ⟨h0, h1, h2, h3, h4, h5, h6, h7⟩ := TrieCountStore.build_fits hL h hb hh cr hc hc' hju hj1 hj2 hj3 e1
  obtain ⟨l', f1, f2, f3, f4⟩ := Sizes.loadAll_sized cr.data_std cr.bytes_exact (l := s.arrs) (by intro e; rw [e] at h4; simp at h4; omega) h7
  rw [h4] at f1
  have ec := getN_putAll fun x hx => C36_compact_vector (h5 x hx)
  rw [h3] at ec
  have hrd : Spec.Reads (TrieCountStore.load (GramsData.fastEF hr c' junk) cr.data c) (s.save c j) ⟨s.order, s.ro, s.voc, l', s.counts⟩ :=
    .bind (getU1 h1) (.bind (getU1 h2) (.bind ec (.bind ((C36_tables rfl).1 _ h6) (.last f1 rfl))))
  have hvoc : s.voc.h = hv := by
    have e := e1
    unfold TrieCountStore.build at e
    split at e
    · cases e
    obtain ⟨_, -, e⟩ := Res.bind_ok_iff e
    obtain ⟨_, -, e⟩ := Res.bind_ok_iff e
    obtain ⟨_, -, e⟩ := Res.bind_ok_iff e
    obtain ⟨_, -, e⟩ := Res.bind_ok_iff e
    obtain ⟨t, e5, e⟩ := Res.bind_ok_iff e
    obtain ⟨_, -, e⟩ := Res.bind_ok_iff e
    obtain ⟨_, -, e⟩ := Res.bind_ok_iff e
    cases e
    have e5 := Res.lift_ok_iff e5
    obtain ⟨f0, -, e5⟩ := Option.bind_eq_some_iff.1 e5
    exact Sizes.buildVocab_h e5
  refine ⟨s, _, e1, _, C36_file hrd header, rfl, _, rfl, rfl, ?_, ?_, ?_, ?_, ?_⟩
  · show (Sizes.countLevels cr.bytes s.order 1 l' : List (Sizes.TrieLevel F)).length = _
    rw [Sizes.countLevels_length, f2, h4, e2]
  · intro k f hf
    obtain ⟨a, a1, a2, -⟩ := e4.array k _ (by rw [List.getElem?_map, hf]; rfl)
    obtain ⟨a', b1, b2⟩ := f3 k a a1
    refine ⟨a, Sizes.gramsBytes a', Sizes.ranksBytes cr.bytes a', Sizes.ptrsBytes a', a1, ?_, ?_⟩
    · exact ⟨fun hk => b2.gramsPart (by omega), fun _ => b2.ranksPart (by rw [ite_self]), b2.ptrsPart⟩
    · refine (Sizes.countLevels_get cr.bytes s.order l' 1 k a' b1).trans ?_
      rw [b2.size, a2, List.length_map, e2]
      have q1 : (if 1 + k ≠ 1 then some (Sizes.gramsBytes a', (Sizes.gramsBytes a' : F) / (f.length : F)) else none) =
          if k = 0 then none else some (Sizes.gramsBytes a', (Sizes.gramsBytes a' : F) / (f.length : F)) := by
        by_cases hk : k = 0
        · rw [if_pos hk, if_neg (by omega)]
        · rw [if_neg hk, if_pos (by omega)]
      have q2 : (if 1 + k ≠ files.length then some (Sizes.ptrsBytes a', (Sizes.ptrsBytes a' : F) / (f.length : F)) else none) =
          if k + 1 = files.length then none else some (Sizes.ptrsBytes a', (Sizes.ptrsBytes a' : F) / (f.length : F)) := by
        by_cases hk : k + 1 = files.length
        · rw [if_pos hk, if_neg (by omega)]
        · rw [if_neg hk, if_pos (by omega)]
      rw [q1, q2]
  · have hlast : s.arrs[files.length - 1]? = some (s.arrs[files.length - 1]'(by omega)) := List.getElem?_eq_getElem _
    generalize s.arrs[files.length - 1]'(by omega) = a at hlast
    obtain ⟨a', b1, b2⟩ := f3 _ a hlast
    have hl' : l'.length = files.length := by omega
    refine ⟨by rw [Sizes.sv_length, hvoc, Nat.add_comm (Spec.hashFunctionBytes c hv)]; rfl, by rw [Sizes.counts_length, h3, e2]; rfl, ?_, ?_, a, hlast, ?_⟩
    · show (l'.map Sizes.gramsBytes).sum = ((Sizes.countLevels cr.bytes s.order 1 l' : List (Sizes.TrieLevel F)).map fun l => (l.grams.map Prod.fst).getD 0).sum + 81
      obtain ⟨x, -, b3⟩ := f3 0 _ (List.getElem?_eq_getElem (by omega))
      have b4 := b3.first rfl
      cases l' with
      | nil => simp at hl'; omega
      | cons y l' =>
        obtain ⟨x1, x2, x3⟩ := f3 0 _ (List.getElem?_eq_getElem (by omega))
        cases x2
        have x4 := (x3.first rfl).1
        rw [List.map_cons, List.sum_cons, x4, Sizes.countLevels, List.map_cons, List.sum_cons, Sizes.countLevels_grams cr.bytes s.order l' 2 (by omega)]
        simp only [if_neg (by omega : ¬ 1 ≠ 1), Option.map_none, Option.getD_none]
        omega
    · show (l'.map (Sizes.ranksBytes cr.bytes)).sum = ((Sizes.countLevels cr.bytes s.order 1 l' : List (Sizes.TrieLevel F)).map (·.ranks.1)).sum
      rw [Sizes.countLevels_ranks]
    · show (l'.map Sizes.ptrsBytes).sum + 8 * 2 = ((Sizes.countLevels cr.bytes s.order 1 l' : List (Sizes.TrieLevel F)).map fun l => (l.ptrs.map Prod.fst).getD 0).sum + _
      rw [← Sizes.countLevels_ptrs (F := F) cr.bytes s.order l' 1 (by omega) a' (by rw [List.getLast?_eq_getElem?, hl']; exact b1), b2.ptrsPart]
      omega
  · have hN : (l'.map (·.size)).sum % 2 ^ 64 = (files.map List.length).sum := Sizes.sum_sizes ?_ ?_ ?_
    · show Spec.ShareOf _ _ (Sizes.share _ ((l'.map (·.size)).sum % 2 ^ 64) _) ∧ Spec.ShareOf _ _ (Sizes.share _ ((l'.map (·.size)).sum % 2 ^ 64) _) ∧
        Spec.ShareOf _ _ (Sizes.share _ ((l'.map (·.size)).sum % 2 ^ 64) _) ∧ (_ : F) / (((l'.map (·.size)).sum % 2 ^ 64 : Nat) : F) = _
      rw [hN]
      exact ⟨⟨rfl, rfl⟩, ⟨rfl, rfl⟩, ⟨rfl, rfl⟩, rfl⟩
    · rw [f2, h4, e2]
    · intro k f hf
      obtain ⟨a, a1, a2, -⟩ := e4.array k _ (by rw [List.getElem?_map, hf]; rfl)
      obtain ⟨a', b1, b2⟩ := f3 k a a1
      exact ⟨a', b1, by rw [b2.size, a2, List.length_map]⟩
    · exact Sizes.files_sum h
  · show (saveFile header (s.save c j)).length + 81 = s.voc.dataBytes + countsBytes s.counts + (l'.map Sizes.gramsBytes).sum +
      (l'.map (Sizes.ranksBytes cr.bytes)).sum + (l'.map Sizes.ptrsBytes).sum + Spec.hashFunctionBytes c hv + (l'.map Spec.gramsFunctionBytes).sum +
      3 + 8 * (10 * files.length - 3)
    unfold saveFile TrieCountStore.save
    simp only [List.length_append, Sizes.length_putU, Sizes.length_putWord, Sizes.counts_length, Sizes.sv_length]
    rw [hvoc, h3]
    simp only [if_true] at f4
    rw [h4] at f4
    rw [← e2]
    omega

/-- C54 for backoff tries: as for count tries; the ranks of one order are one vector, those of the first order (the probabilities of
words are in the vocabulary) do not exist in the file but are counted as 24 bytes. -/
theorem C54_backoff_trie {K P F : Type} [DecidableEq K] [FloatArith P] [Mul F] [Div F] [NatCast F]
    (fb : FloatBits P) {sort : List P → List P} (hsort : ∀ l, (sort l).Perm l ∧ (sort l).Pairwise (· ≤ ·))
    (negInf : P) (unkWord : K) (default unk : P) {U : List K} {data : List (List (List K × P × P))} {ro pb bb : Nat}
    (h : Spec.ProbFiles U data ro) (hq : Spec.Quantisable data pb bb) (hbits : pb + bb ≤ 58)
    (hcb : ∀ ps bs, Quant.codebooks sort negInf pb bb data = some (.ok (ps, bs)) → ∀ l ∈ ps ++ bs, ∀ x ∈ l, Spec.IsFloat fb x)
    (hunk : Spec.IsFloat fb (Spec.unkProb unkWord default (data.getD 0 []) unk))
    {hv : Mphf K 64} (hb : hv.BuiltFrom U) {hr : Nat → Mphf Nat 64} (hh : Spec.RangeHashes hr (TrieProb.asCounts data))
    {c : Emphf K 64} (hc : Spec.EmphfReads c hv) {c' : Emphf Nat 64} (hc' : ∀ k, Spec.EmphfReads c' (hr k)) {junk : UTable Nat 64}
    (hju : junk.Fits c') {j : Junk (GramsData.fastEF hr c' junk) RanksData.cv} (hj1 : FastEF.Fits c' j.grams) (hj2 : CompactVector.Fits j.ranks)
    (hj3 : j.ptrs.Fits) (header : Byte) :
    ∃ s s' : TrieProbStore K P (GramsData.fastEF hr c' junk) RanksData.cv,
      TrieProbStore.build fb sort negInf unkWord default hv _ _ ro unk pb bb data = some (.ok s) ∧
      ∃ n, loadFile (TrieProbStore.load (GramsData.fastEF hr c' junk) RanksData.cv fb c) (saveFile header (s.save fb c j bb)) = some (s', n) ∧
      n = (saveFile header (s.save fb c j bb)).length ∧
      ∃ p : Sizes.ProbPrinted F, s'.printSizes RankBytes.cv n = p ∧ p.total = n ∧ p.levels.length = data.length ∧
        (∀ k, k < data.length → ∃ a grams ranks ptrs, s.arrs[k]? = some a ∧
          Spec.OrderBytes 1 k (decide (k ≠ 0)) j a grams ranks ptrs ∧
          p.levels[k]? = some (grams, ranks, ptrs) ∧ (k = 0 → grams = 81 ∧ ranks = 24)) ∧
        ((s.voc.save c).length = p.vocab + Spec.hashFunctionBytes c hv + 8 ∧
          (saveQuantized fb s.pb s.ps).length = p.probs + 8 * (data.length - 1) ∧ (saveQuantized fb bb s.bs).length = p.backoffs + 8 * (data.length - 2) ∧
          p.grams.bytes = (p.levels.map (·.1)).sum ∧ p.ranks.bytes = (p.levels.map (·.2.1)).sum ∧ p.ptrs.bytes = (p.levels.map (·.2.2)).sum) ∧
        (Spec.ShareOf n (data.map List.length).sum p.grams ∧ Spec.ShareOf n (data.map List.length).sum p.ranks ∧
          Spec.ShareOf n (data.map List.length).sum p.ptrs ∧ p.perGram = (n : F) / ((data.map List.length).sum : F)) ∧
        n + 81 + 24 = p.vocab + p.probs + p.backoffs + p.grams.bytes + p.ranks.bytes + p.ptrs.bytes + Spec.hashFunctionBytes c hv +
          (s'.arrs.map Spec.gramsFunctionBytes).sum + 3 + 4 + 8 * (10 * data.length - 7) := by
  obtain ⟨s, e1, e2, e4⟩ := Stats.prob_laid (c' := c') (junk := junk) fb hsort negInf unkWord default unk h hq hbits hb hh
  have hd0 : data[0]? = some (data.getD 0 []) := by
    rw [List.getD_eq_getElem?_getD, List.getElem?_eq_getElem (by have := h.arpa.order_min; omega)]; rfl
  have h2le := h.arpa.order_min
  rw [← findUnk_spec unkWord default _ unk (h.arpa.distinct _ (List.mem_of_getElem? hd0))] at hunk
  have hpow := hq.probs.2
  obtain ⟨h0, h1, h2, h3, h4, h5, h6, h7, h8, h9, h10, h11⟩ := TrieProbStore.build_fits fb h (by omega) hb hh hc hc' hju hj1 hj2 hj3 hcb hunk e1
  obtain ⟨l', f1, f2, f3, f4⟩ := Sizes.loadAll_sized .cv Sizes.exact_cv (l := s.arrs) (by intro e; rw [e] at h7; simp at h7; omega) h11
  rw [h7] at f1
  have hp := loadQuantized_save h4 h8
  have hb' := loadQuantized_save (by omega : bb < 256) h9
  rw [h5] at hp
  rw [h6] at hb'
  have hvoc : s.voc.h = hv := by
    have e := e1
    unfold TrieProbStore.build at e
    split at e
    · cases e
    obtain ⟨_, -, e⟩ := Res.bind_ok_iff e
    obtain ⟨_, -, e⟩ := Res.bind_ok_iff e
    obtain ⟨t, e5, e⟩ := Res.bind_ok_iff e
    obtain ⟨_, -, e⟩ := Res.bind_ok_iff e
    obtain ⟨_, -, e⟩ := Res.bind_ok_iff e
    cases e
    exact Sizes.buildProbVocab_h (Res.lift_ok_iff e5)
  have hrd : Spec.Reads (TrieProbStore.load (GramsData.fastEF hr c' junk) RanksData.cv fb c) (s.save fb c j bb)
      ⟨s.order, s.ro, s.unk, s.voc, l', s.ps, s.bs, (List.replicate (s.order - 1) s.pb).headD 0⟩ := by
    refine .bind (getU1 h1) (.bind (getU1 h2) (.bind (getF_putF h3) ?_))
    rw [if_neg (by omega)]
    exact .bind hp (.bind hb' (.bind ((C36_tables rfl).2.1 _ h10) (.last f1 rfl)))
  refine ⟨s, _, e1, _, C36_file hrd header, rfl, _, rfl, rfl, ?_, ?_, ?_, ?_, ?_⟩
  · show (l'.map _).length = _
    rw [List.length_map, f2, h7, e2]
  · intro k hk
    obtain ⟨a, a1⟩ : ∃ a, s.arrs[k]? = some a := ⟨_, List.getElem?_eq_getElem (by omega)⟩
    obtain ⟨a', b1, b2⟩ := f3 k a a1
    have hw : (if k = 0 then false else true) = decide (k ≠ 0) := by by_cases hk0 : k = 0 <;> simp [hk0]
    rw [hw] at b2
    refine ⟨a, Sizes.gramsBytes a', Sizes.ranksBytes RankBytes.cv a', Sizes.ptrsBytes a', a1, ?_, ?_⟩
    · exact ⟨fun hk => b2.gramsPart (by omega), b2.ranksPart, b2.ptrsPart⟩
    · refine ⟨?_, fun hk => ⟨(b2.first (by omega)).1, b2.noRanks (by simp [hk])⟩⟩
      show (l'.map _)[k]? = _
      rw [List.getElem?_map, b1]
      rfl
  · refine ⟨by rw [Sizes.dv_length, hvoc, Nat.add_comm (Spec.hashFunctionBytes c hv)]; rfl, by rw [Sizes.quantized_length, h5, e2]; rfl,
      by rw [Sizes.quantized_length, h6, e2]; rfl, ?_, ?_, ?_⟩
    · show (l'.map Sizes.gramsBytes).sum = ((l'.map _).map _).sum
      rw [List.map_map]; rfl
    · show (l'.map (Sizes.ranksBytes RankBytes.cv)).sum = ((l'.map _).map _).sum
      rw [List.map_map]; rfl
    · show (l'.map Sizes.ptrsBytes).sum = ((l'.map _).map _).sum
      rw [List.map_map]; rfl
  · have hN : (l'.map (·.size)).sum % 2 ^ 64 = (data.map List.length).sum := Sizes.sum_sizes ?_ ?_ ?_
    · show Spec.ShareOf _ _ (Sizes.share _ ((l'.map (·.size)).sum % 2 ^ 64) _) ∧ Spec.ShareOf _ _ (Sizes.share _ ((l'.map (·.size)).sum % 2 ^ 64) _) ∧
        Spec.ShareOf _ _ (Sizes.share _ ((l'.map (·.size)).sum % 2 ^ 64) _) ∧ (_ : F) / (((l'.map (·.size)).sum % 2 ^ 64 : Nat) : F) = _
      rw [hN]
      exact ⟨⟨rfl, rfl⟩, ⟨rfl, rfl⟩, ⟨rfl, rfl⟩, rfl⟩
    · rw [f2, h7, e2]
    · intro k f hf
      obtain ⟨a, a1, a2, -⟩ := e4.array k _ (by rw [List.getElem?_map, hf]; rfl)
      obtain ⟨a', b1, b2⟩ := f3 k a a1
      exact ⟨a', b1, by rw [b2.size, a2, List.length_map]⟩
    · have := Sizes.files_sum (TrieProb.asCounts_ok h)
      have e : (TrieProb.asCounts data).map List.length = data.map List.length := by
        unfold TrieProb.asCounts
        rw [List.map_map]
        apply List.map_congr_left
        intro x _
        exact List.length_map _
      rwa [e] at this
  · show (saveFile header (s.save fb c j bb)).length + 81 + 24 = s.voc.dataBytes + quantizedBytes s.ps + quantizedBytes s.bs +
      (l'.map Sizes.gramsBytes).sum + (l'.map (Sizes.ranksBytes RankBytes.cv)).sum + (l'.map Sizes.ptrsBytes).sum +
      Spec.hashFunctionBytes c hv + (l'.map Spec.gramsFunctionBytes).sum + 3 + 4 + 8 * (10 * data.length - 7)
    unfold saveFile TrieProbStore.save
    have hF : (putF fb s.unk).length = 4 := Sizes.length_putWord 4 _
    simp only [List.length_append, Sizes.length_putU, Sizes.length_putWord, Sizes.quantized_length, Sizes.dv_length, hF]
    rw [hvoc, h5, h6]
    simp only [Bool.false_eq_true, if_false] at f4
    have he : RankBytes.cv.empty = 24 := rfl
    rw [h7, he] at f4
    rw [← e2]
    omega

theorem Sizes.sv_facts {K : Type} {B : Nat} (hB : B = 32 ∨ B = 64) {h : Mphf K B} {keys : List K} {values : CompactVector} {t : SVTable K B}
    (e : SVTable.build h keys values = some t) : t.h = h ∧ B / 8 * values.size ≤ t.dataBytes := by
  unfold SVTable.build at e
  obtain ⟨c, e1, e⟩ := Option.bind_eq_some_iff.1 e
  obtain ⟨vs, -, e⟩ := Option.bind_eq_some_iff.1 e
  obtain ⟨c', e2, rfl⟩ := Option.map_eq_some_iff.1 e
  have hs := SVTable.fill_sizes h _ _ _ _ e2
  unfold HCV.new at e1
  split at e1
  · cases e1
  split at e1
  · cases e1
  cases e1
  refine ⟨rfl, ?_⟩
  unfold SVTable.dataBytes HCV.bytes
  rw [hs.2.2]
  simp only [List.length_replicate]
  rcases hB with rfl | rfl
  · have : values.size ≤ (values.size * (32 + values.width) + (32 - 1)) / 32 := by
      rw [Nat.le_div_iff_mul_le (by decide), Nat.mul_add]
      omega
    simp only [show 32 / 8 = 4 from rfl]
    omega
  · have : values.size ≤ (values.size * (64 + values.width) + (64 - 1)) / 64 := by
      rw [Nat.le_div_iff_mul_le (by decide), Nat.mul_add]
      omega
    simp only [show 64 / 8 = 8 from rfl]
    omega

theorem Sizes.builtFrom_n {K : Type} {B : Nat} {h : Mphf K B} {keys : List K} (hb : h.BuiltFrom keys) : h.n = keys.length := by
  obtain ⟨edges, order, -, -, -, h2⟩ := hb
  obtain ⟨bv, -, h3⟩ := Option.bind_eq_some_iff.1 h2
  have h3 : some ({ n := keys.length, domain := h.domain, hasher := h.hasher, bv := bv } : Mphf K B) = some h := h3
  exact (congrArg Mphf.n (Option.some.inj h3)).symm

theorem Sizes.tableOf_facts {V : Type} {B : Nat} (hB : B = 32 ∨ B = 64) {h : Mphf (List Byte) B} {w n : Nat} {value : V → Option W}
    {index : List (List Byte × V)} {t : SVTable (List Byte) B} (e : tableOf h w n value index = some t) : t.h = h ∧ B / 8 * n ≤ t.dataBytes := by
  unfold tableOf at e
  obtain ⟨b, e1, e⟩ := Option.bind_eq_some_iff.1 e
  obtain ⟨vs, -, e⟩ := Option.bind_eq_some_iff.1 e
  obtain ⟨b', e2, e⟩ := Option.bind_eq_some_iff.1 e
  have h1 := CVBuilder.new_sizes e1
  have h2 := CVBuilder.fill_sizes _ _ _ e2
  have h3 := Sizes.sv_facts hB e
  have h4 : (CompactVector.ofBuilder b').size = n := by show b'.size = n; omega
  rwa [h4] at h3

theorem Sizes.loadFrom_length {V : Type} {p p' : Pool V} {ls : List (List Byte × V)} (hne : ∀ l ∈ ls, l.1 ≠ [])
    (e : p.loadFrom ls = some (.ok p')) : p'.records.length = ls.length := by
  have key : ∀ (ls : List (List Byte × V)), (∀ l ∈ ls, l.1 ≠ []) → ∀ (p : Pool V), Pool.loadFrom.go p ls = some (.ok p') →
      p'.index.length = p.index.length + ls.length := by
    intro ls
    induction ls with
    | nil => intro _ p e; cases e; simp
    | cons l ls ih =>
      intro hne p e
      rw [Pool.loadFrom.go] at e
      obtain ⟨x, e1, e⟩ := Option.bind_eq_some_iff.1 e
      have hl : l.1.length ≠ 0 := fun h => hne l (by simp) (List.length_eq_zero_iff.1 h)
      cases hx : x.1 with
      | false => rw [hx, if_neg (by simp)] at e; cases e
      | true =>
        rw [hx, if_pos rfl] at e
        have h1 := ih (fun y hy => hne y (by simp [hy])) _ e
        have h2 : x.2.index.length = p.index.length + 1 := by
          unfold Pool.append at e1
          rw [if_pos hl] at e1
          split at e1
          · cases e1; cases hx
          · split at e1
            · cases e1
            · cases e1; simp
        rw [List.length_cons]
        omega
  have := key ls hne _ e
  simpa [Pool.records, Pool.clear] using this

/-- What is printed about the parts of a hash model, if the parts are those of the file. -/
theorem Sizes.hash_parts {F : Type} [Mul F] [Div F] [NatCast F] {B order num total rest : Nat} {values tables : List Nat}
    (h1 : total = values.sum + tables.sum + rest) (h2 : B / 8 * num ≤ tables.sum) (h3 : total < 2 ^ 64) :
    let p : Sizes.HashPrinted F := Sizes.hashPrinted B order num total values tables
    p.keys.bytes = B / 8 * num ∧ p.keys.bytes + p.ranks.bytes = values.sum + tables.sum ∧
      p.keys.bytes + p.ranks.bytes + p.functions.bytes = total ∧ p.functions.bytes = rest := by
  intro p
  have e1 : (values.sum + tables.sum) % 2 ^ 64 = values.sum + tables.sum := Nat.mod_eq_of_lt (by omega)
  have e2 : B / 8 * num % 2 ^ 64 = B / 8 * num := Nat.mod_eq_of_lt (by omega)
  have k1 : p.keys.bytes = B / 8 * num := e2
  have k2 : p.ranks.bytes = values.sum + tables.sum - B / 8 * num := by
    show ((values.sum + tables.sum) % 2 ^ 64 + 2 ^ 64 - B / 8 * num % 2 ^ 64) % 2 ^ 64 = _
    rw [e1, e2, show values.sum + tables.sum + 2 ^ 64 - B / 8 * num = values.sum + tables.sum - B / 8 * num + 2 ^ 64 by omega, Nat.add_mod_right,
      Nat.mod_eq_of_lt (by omega)]
  have k3 : p.functions.bytes = rest := by
    show (total + 2 ^ 64 - (values.sum + tables.sum) % 2 ^ 64) % 2 ^ 64 = _
    rw [e1, show total + 2 ^ 64 - (values.sum + tables.sum) = rest + 2 ^ 64 by omega, Nat.add_mod_right, Nat.mod_eq_of_lt (by omega)]
  refine ⟨k1, ?_, ?_, k3⟩ <;> omega

theorem Sizes.tables_length {K : Type} {B : Nat} (c : Emphf K B) : ∀ ts : List (SVTable K B), (putAll (SVTable.save c) ts).length =
    (ts.map (·.dataBytes)).sum + (ts.map fun t => Spec.hashFunctionBytes c t.h).sum + 8 * ts.length
  | [] => rfl
  | t :: ts => by
    have := Sizes.tables_length c ts
    rw [Sizes.length_putAll] at *
    simp only [List.map_cons, List.sum_cons, List.length_cons, Sizes.sv_length] at *
    omega

/-- The tables of a hash model hold their keys, and use the hash functions built. -/
theorem Sizes.tables_sum {α : Type} {B : Nat} {hs : Nat → Mphf (List Byte) B} {c : Emphf (List Byte) B} : ∀ {ts : List (SVTable (List Byte) B)}
    {files : List (List α)} {o : Nat}, ts.length = files.length →
    (∀ (k : Nat) (f : List α), files[k]? = some f → ∃ t, ts[k]? = some t ∧ t.h = hs (o + k) ∧ B / 8 * f.length ≤ t.dataBytes ∧ (hs (o + k)).n = f.length) →
    (ts.map (·.h.n)).sum = (files.map List.length).sum ∧ B / 8 * (files.map List.length).sum ≤ (ts.map (·.dataBytes)).sum ∧
      (ts.map fun t => Spec.hashFunctionBytes c t.h) = (List.range files.length).map fun k => Spec.hashFunctionBytes c (hs (o + k))
  | [], [], _, _, _ => ⟨rfl, by simp, rfl⟩
  | [], _ :: _, _, h, _ => by simp at h
  | _ :: _, [], _, h, _ => by simp at h
  | t :: ts, f :: files, o, h, hk => by
    obtain ⟨t', a1, a2, a3, a4⟩ := hk 0 f rfl
    cases a1
    obtain ⟨i1, i2, i3⟩ := Sizes.tables_sum (hs := hs) (c := c) (ts := ts) (files := files) (o := o + 1) (by simpa using h) (by
      intro k g hg
      have := hk (k + 1) g hg
      rwa [show o + (k + 1) = o + 1 + k by omega] at this)
    refine ⟨?_, ?_, ?_⟩
    · rw [List.map_cons, List.sum_cons, i1, List.map_cons, List.sum_cons, a2, a4]
    · rw [List.map_cons, List.sum_cons, List.map_cons, List.sum_cons, Nat.mul_add]
      omega
    · rw [List.map_cons, i3, List.length_cons, List.range_succ_eq_map, List.map_cons, List.map_map, a2]
      congr 1
      apply List.map_congr_left
      intro k _
      show Spec.hashFunctionBytes c (hs (o + 1 + k)) = Spec.hashFunctionBytes c (hs (o + (k + 1)))
      rw [show o + (k + 1) = o + 1 + k by omega]

/-- C54 for hash count models: the total is the length of the file; the keys are one integer of the hash for each n-gram of the
files; keys and ranks together are the tables and the distinct counts; and keys, ranks and functions are the whole file, where the
functions are the hash functions with the two one-byte numbers and the lengths of the vectors. -/
theorem C54_hash_count {F : Type} [Mul F] [Div F] [NatCast F] {B : Nat} {L : SortLib} (hL : L.Valid) {mem extra : Nat}
    {files : List (List (List (List Byte) × Nat))}
    (h : Spec.CountLists mem files) (hB : B = 64 ∨ (B = 32 ∧ ∀ f ∈ files, f.length < 2 ^ 26)) (hn : ∀ f ∈ files, f.length < 2 ^ 57)
    {hs : Nat → Mphf (List Byte) B}
    (hb : ∀ (k : Nat) (f : List (List (List Byte) × Nat)), files[k]? = some f → (hs k).BuiltFrom (f.map fun r => joinSp r.1))
    {c : Emphf (List Byte) B} (hc : ∀ k, Spec.EmphfReads c (hs k)) (header : Byte) :
    ∃ m, MphCount.build L mem extra hs (Spec.lines files) = some (.ok m) ∧
      ∃ n, loadFile (MphCount.load c) (saveFile header (m.save c)) = some (m, n) ∧ n = (saveFile header (m.save c)).length ∧
      (n < 2 ^ 64 → ∃ p : Sizes.HashPrinted F, m.printSizes n = p ∧ p.order = files.length ∧ p.numGrams = (files.map List.length).sum ∧
        p.total = n ∧ p.perGram = (n : F) / ((files.map List.length).sum : F) ∧
        (∃ values, p.values = [values] ∧ (saveCounts m.counts).length = values + 8 * files.length) ∧ p.tables.length = files.length ∧
        (∀ k, k < files.length → ∃ t x, m.tables[k]? = some t ∧ p.tables[k]? = some x ∧ (t.save c).length = Spec.hashFunctionBytes c (hs k) + x + 8) ∧
        p.keys.bytes = B / 8 * (files.map List.length).sum ∧ p.keys.perGram = ((B / 8 : Nat) : F) / ((files.map List.length).sum : F) ∧
        p.keys.bytes + p.ranks.bytes = p.values.sum + p.tables.sum ∧
        p.keys.bytes + p.ranks.bytes + p.functions.bytes = n ∧
        p.functions.bytes = 2 + 8 * (files.length + files.length) +
          ((List.range files.length).map fun k => Spec.hashFunctionBytes c (hs k)).sum ∧
        Spec.ShareOf n (files.map List.length).sum p.ranks ∧ Spec.ShareOf n (files.map List.length).sum p.functions) := by
  obtain ⟨m, e1, e2, -⟩ := C36_hash_count_through_a_file hL (extra := extra) h hB hn hb hc header
  refine ⟨m, e1, _, e2, rfl, ?_⟩
  intro hlen
  have hB' : B = 32 ∨ B = 64 := by rcases hB with h | ⟨h, -⟩ <;> omega
  have hfacts : m.order = files.length ∧ m.counts.length = files.length ∧ m.tables.length = files.length ∧
      ∀ (k : Nat) (f : List (List (List Byte) × Nat)), files[k]? = some f → ∃ t, m.tables[k]? = some t ∧ t.h = hs (0 + k) ∧
        B / 8 * f.length ≤ t.dataBytes ∧ (hs (0 + k)).n = f.length := by
    have e := e1
    unfold MphCount.build at e
    split at e
    · cases e
    obtain ⟨colls, e3, e⟩ := Res.bind_ok_iff e
    obtain ⟨ts, e4, e⟩ := Res.bind_ok_iff e
    cases e
    have lc := Res.mapM_length e3
    have lt := Res.mapM_length e4
    rw [List.length_zipIdx, List.length_zip, lc, Nat.min_self] at lt
    have hl : (Spec.lines files).length = files.length := List.length_map _
    refine ⟨hl, by show (colls.map _).length = _; rw [List.length_map, lc, hl], by show ts.length = _; rw [lt, hl], ?_⟩
    intro k f hf
    have hk := (List.getElem?_eq_some_iff.1 hf).1
    have ht : ts[k]? = some (ts[k]'(by omega)) := List.getElem?_eq_getElem _
    generalize ts[k]'(by omega) = t at ht
    refine ⟨t, ht, ?_⟩
    obtain ⟨⟨⟨g, x⟩, k'⟩, hp, e⟩ := Res.mapM_get? e4 k t ht
    rw [List.getElem?_zipIdx] at hp
    obtain ⟨p, hp', e0⟩ := Option.map_eq_some_iff.1 hp
    cases e0
    have hg := (zip_get? hp').1
    rw [Spec.lines, List.getElem?_map, hf] at hg
    cases hg
    unfold MphCount.buildTable at e
    obtain ⟨pool, e5, e⟩ := Res.bind_ok_iff e
    have hne : ∀ l ∈ f.map (fun r => (joinSp r.1, r.2)), l.1 ≠ [] := by
      intro l hl
      obtain ⟨r, hr, rfl⟩ := List.mem_map.1 hl
      have hlen := h.len k f hf r hr
      refine joinSp_ne_nil (by intro e; rw [e] at hlen; simp at hlen) ?_
      intro w hw
      exact (h.words f (List.mem_of_getElem? hf) r hr w hw).2
    have hlen := Sizes.loadFrom_length hne e5
    rw [List.length_map] at hlen
    have h5 := Sizes.tableOf_facts hB' (Res.lift_ok_iff e)
    rw [hlen] at h5
    have hbk := Sizes.builtFrom_n (hb k f hf)
    rw [List.length_map] at hbk
    exact ⟨h5.1, h5.2, by rw [Nat.zero_add]; exact hbk⟩
  obtain ⟨o1, o2, o3, o4⟩ := hfacts
  obtain ⟨s1, s2, s3⟩ := Sizes.tables_sum (c := c) o3 o4
  have hsum : (saveFile header (m.save c)).length = [countsBytes m.counts].sum + (m.tables.map (·.dataBytes)).sum +
      (2 + 8 * (files.length + files.length) + ((List.range files.length).map fun k => Spec.hashFunctionBytes c (hs k)).sum) := by
    unfold saveFile MphCount.save
    simp only [Nat.zero_add] at s3
    simp only [List.length_append, Sizes.length_putU, Sizes.length_putWord, Sizes.counts_length, Sizes.tables_length, List.sum_cons, List.sum_nil]
    rw [s3, o2, o3]
    omega
  have hN : (m.tables.map (·.h.n)).sum % 2 ^ 64 = (files.map List.length).sum := by
    rw [s1]
    apply Nat.mod_eq_of_lt
    have : (files.map List.length).sum ≤ B / 8 * (files.map List.length).sum := Nat.le_mul_of_pos_left _ (by omega)
    omega
  refine ⟨_, rfl, o1, hN, rfl, ?_, ?_⟩
  · show _ / ((((m.tables.map (·.h.n)).sum % 2 ^ 64 : Nat)) : F) = _
    rw [hN]
  · have htab : (m.tables.map (·.dataBytes)).length = files.length ∧ ∀ k, k < files.length → ∃ t x, m.tables[k]? = some t ∧
        (m.tables.map (·.dataBytes))[k]? = some x ∧ (t.save c).length = Spec.hashFunctionBytes c (hs k) + x + 8 := by
      refine ⟨by rw [List.length_map, o3], ?_⟩
      intro k hk
      obtain ⟨t, t1, t2, -⟩ := o4 k _ (List.getElem?_eq_getElem hk)
      refine ⟨t, t.dataBytes, t1, by rw [List.getElem?_map, t1]; rfl, ?_⟩
      rw [Sizes.sv_length, t2, Nat.zero_add]
    unfold MphCount.printSizes
    rw [hN]
    obtain ⟨q1, q2, q3, q4⟩ := Sizes.hash_parts (F := F) (order := m.order) hsum s2 hlen
    exact ⟨⟨_, rfl, by rw [Sizes.counts_length, o2]⟩, htab.1, htab.2, q1, rfl, q2, q3, q4, ⟨rfl, rfl⟩, ⟨rfl, rfl⟩⟩

/-- C54 for hash backoff models: the same; the functions also hold the probability of unknown words (4 bytes), and there is one
collection of probabilities for each order from 2, one of backoffs for each from 2 but the last, and one table for each order. -/
theorem C54_hash_backoff {P F : Type} [FloatArith P] [Mul F] [Div F] [NatCast F] {B : Nat} (fb : FloatBits P) {sort : List P → List P}
    (hsort : ∀ l, (sort l).Perm l ∧ (sort l).Pairwise (· ≤ ·)) (negInf default unk : P) {mem pb bb : Nat} (extra : Nat)
    {hs : Nat → Mphf (List Byte) B} {data : List (List (List (List Byte) × P × P))} (h : Spec.MphProbInput fb mem pb bb hs data)
    (hn : ∀ f ∈ data, f.length < 2 ^ 57) (hcb : ∀ ps bs, Quant.codebooks sort negInf pb bb data = some (.ok (ps, bs)) → ∀ l ∈ ps ++ bs, ∀ x ∈ l, Spec.IsFloat fb x)
    (hunk : Spec.IsFloat fb (Spec.unkProb Spec.unkText default (data.getD 0 []) unk))
    {c : Emphf (List Byte) B} (hc : ∀ k, Spec.EmphfReads c (hs k)) (header : Byte) :
    ∃ m, MphProb.build fb sort negInf default unk mem extra hs pb bb (Spec.lines data) = some (.ok m) ∧
      ∃ n, loadFile (MphProb.load fb c) (saveFile header (m.save fb c bb)) = some (m, n) ∧ n = (saveFile header (m.save fb c bb)).length ∧
      (n < 2 ^ 64 → ∃ p : Sizes.HashPrinted F, m.printSizes n = p ∧ p.order = data.length ∧ p.numGrams = (data.map List.length).sum ∧
        p.total = n ∧ p.perGram = (n : F) / ((data.map List.length).sum : F) ∧
        (∃ probs backoffs, p.values = [probs, backoffs] ∧ (saveQuantized fb m.pb m.ps).length = probs + 8 * (data.length - 1) ∧
          (saveQuantized fb bb m.bs).length = backoffs + 8 * (data.length - 2)) ∧ p.tables.length = data.length ∧
        (∀ k, k < data.length → ∃ t x, m.tables[k]? = some t ∧ p.tables[k]? = some x ∧ (t.save c).length = Spec.hashFunctionBytes c (hs k) + x + 8) ∧
        p.keys.bytes = B / 8 * (data.map List.length).sum ∧ p.keys.perGram = ((B / 8 : Nat) : F) / ((data.map List.length).sum : F) ∧
        p.keys.bytes + p.ranks.bytes = p.values.sum + p.tables.sum ∧
        p.keys.bytes + p.ranks.bytes + p.functions.bytes = n ∧
        p.functions.bytes = 2 + 4 + 8 * (data.length - 1 + (data.length - 2) + data.length) +
          ((List.range data.length).map fun k => Spec.hashFunctionBytes c (hs k)).sum ∧
        Spec.ShareOf n (data.map List.length).sum p.ranks ∧ Spec.ShareOf n (data.map List.length).sum p.functions) := by
  obtain ⟨m, -, -, e1, e2, -⟩ := C36_hash_backoff_through_a_file fb hsort negInf default unk extra h hn hcb hunk hc header
  refine ⟨m, e1, _, e2, rfl, ?_⟩
  intro hlen
  have hB' : B = 32 ∨ B = 64 := by rcases h.bits with ⟨h, -⟩ | ⟨h, -⟩ <;> omega
  have hfacts : m.order = data.length ∧ m.ps.length = data.length - 1 ∧ m.bs.length = data.length - 2 ∧ m.tables.length = data.length ∧
      ∀ (k : Nat) (f : List (List (List Byte) × P × P)), data[k]? = some f → ∃ t, m.tables[k]? = some t ∧ t.h = hs (0 + k) ∧
        B / 8 * f.length ≤ t.dataBytes ∧ (hs (0 + k)).n = f.length := by
    have e := e1
    unfold MphProb.build at e
    split at e
    · cases e
    obtain ⟨⟨ps, bs⟩, e3, e⟩ := Res.bind_ok_iff e
    obtain ⟨f0, e4, e⟩ := Res.bind_ok_iff e
    obtain ⟨t0, e5, e⟩ := Res.bind_ok_iff e
    obtain ⟨ts, e6, e⟩ := Res.bind_ok_iff e
    cases e
    have hl : (Spec.lines data).length = data.length := List.length_map _
    obtain ⟨q1, q2, -, -⟩ := Quant.codebooks_sizes e3
    have lt := Res.mapM_length e6
    rw [List.length_zipIdx, List.length_tail, hl] at lt
    have hmin := h.arpa.order_min
    refine ⟨hl, by rw [← hl]; exact q1, by rw [← hl]; exact q2, by show ts.length + 1 = _; omega, ?_⟩
    intro k f hf
    have hk := (List.getElem?_eq_some_iff.1 hf).1
    have hbk := Sizes.builtFrom_n (h.hashes k f hf)
    rw [List.length_map] at hbk
    have hfk : (Spec.lines data)[k]? = some (f.map fun r => (joinSp r.1, r.2)) := by rw [Spec.lines, List.getElem?_map, hf]; rfl
    cases k with
    | zero =>
      have e4 := Res.lift_ok_iff e4
      rw [List.head?_eq_getElem?, hfk] at e4
      cases e4
      have e5 := Res.lift_ok_iff e5
      unfold MphProb.buildVocabulary at e5
      obtain ⟨ix, -, e⟩ := Option.bind_eq_some_iff.1 e5
      have h5 := Sizes.tableOf_facts hB' e
      rw [List.length_map] at h5
      exact ⟨t0, rfl, h5.1, h5.2, hbk⟩
    | succ k =>
      have ht : ts[k]? = some (ts[k]'(by omega)) := List.getElem?_eq_getElem _
      generalize ts[k]'(by omega) = t at ht
      obtain ⟨⟨g, k'⟩, hp, e⟩ := Res.mapM_get? e6 k t ht
      rw [List.getElem?_zipIdx] at hp
      obtain ⟨p, hp', e0⟩ := Option.map_eq_some_iff.1 hp
      rw [List.getElem?_tail, hfk] at hp'
      cases hp'
      cases e0
      have e := Res.lift_ok_iff e
      unfold MphProb.buildTable at e
      obtain ⟨ix, -, e⟩ := Option.bind_eq_some_iff.1 e
      have h5 := Sizes.tableOf_facts hB' e
      rw [List.length_map] at h5
      refine ⟨t, ht, ?_, h5.2, by rw [Nat.zero_add]; exact hbk⟩
      rw [h5.1, Nat.zero_add, Nat.zero_add]
  obtain ⟨o1, o2, o2', o3, o4⟩ := hfacts
  obtain ⟨s1, s2, s3⟩ := Sizes.tables_sum (c := c) o3 o4
  have hsum : (saveFile header (m.save fb c bb)).length = [quantizedBytes m.ps, quantizedBytes m.bs].sum + (m.tables.map (·.dataBytes)).sum +
      (2 + 4 + 8 * (data.length - 1 + (data.length - 2) + data.length) +
        ((List.range data.length).map fun k => Spec.hashFunctionBytes c (hs k)).sum) := by
    unfold saveFile MphProb.save
    simp only [Nat.zero_add] at s3
    have hF : (putF fb m.unk).length = 4 := Sizes.length_putWord 4 _
    simp only [List.length_append, Sizes.length_putU, Sizes.length_putWord, Sizes.quantized_length, Sizes.tables_length, List.sum_cons, List.sum_nil, hF]
    rw [s3, o2, o2', o3]
    omega
  have hN : (m.tables.map (·.h.n)).sum % 2 ^ 64 = (data.map List.length).sum := by
    rw [s1]
    apply Nat.mod_eq_of_lt
    have : (data.map List.length).sum ≤ B / 8 * (data.map List.length).sum := Nat.le_mul_of_pos_left _ (by omega)
    omega
  refine ⟨_, rfl, o1, hN, rfl, ?_, ?_⟩
  · show _ / ((((m.tables.map (·.h.n)).sum % 2 ^ 64 : Nat)) : F) = _
    rw [hN]
  · have htab : (m.tables.map (·.dataBytes)).length = data.length ∧ ∀ k, k < data.length → ∃ t x, m.tables[k]? = some t ∧
        (m.tables.map (·.dataBytes))[k]? = some x ∧ (t.save c).length = Spec.hashFunctionBytes c (hs k) + x + 8 := by
      refine ⟨by rw [List.length_map, o3], ?_⟩
      intro k hk
      obtain ⟨t, t1, t2, -⟩ := o4 k _ (List.getElem?_eq_getElem hk)
      refine ⟨t, t.dataBytes, t1, by rw [List.getElem?_map, t1]; rfl, ?_⟩
      rw [Sizes.sv_length, t2, Nat.zero_add]
    unfold MphProb.printSizes
    rw [hN]
    obtain ⟨q1, q2, q3, q4⟩ := Sizes.hash_parts (F := F) (order := m.order) hsum s2 hlen
    exact ⟨⟨_, _, rfl, by rw [Sizes.quantized_length, o2], by rw [Sizes.quantized_length, o2']⟩, htab.1, htab.2, q1, rfl, q2, q3, q4, ⟨rfl, rfl⟩, ⟨rfl, rfl⟩⟩

namespace SizesExample
open FilesExample TrieProbExample SaveExample EndExample StatsExample

/-- The hypotheses of C54 are met by the count files of C44's example, and by its ARPA file. -/
example := C54_count_trie (F := ℚ) exLib_valid files_trie
  (TextExample.built3 (keys := U) rfl (by decide)) files_hashes .ic (by simp) voc_read ranges_read junk_fits
  (j := empty CountRanks.ic.data icJunk _) (fef_fits [1, 2] (by decide) (by decide))
  (by show ICSeq.Fits _; simp [empty, icJunk, ICSeq.Fits, BitVector.Fits, DArray.Fits, DArray.empty]) (empty_ptrs _ _ _) 7#8

example := C54_backoff_trie (F := ℚ) fb8 sortQ_ok (-1000) unkBytes (-100) (-100)
  MphProbExample.data_trie MphProbExample.data_input.quant (by decide) codes8 unk8
  (TextExample.built3 (keys := U) rfl (by decide)) MphProbExample.data_hashes voc_read ranges_read junk_fits
  (j := empty RanksData.cv cvJunk _) (fef_fits [1, 2] (by decide) (by decide))
  ⟨by decide, by decide, by decide⟩ (empty_ptrs _ _ _) 7#8

example := C54_hash_count (F := ℚ) exLib_valid (extra := 0) MphCountExample.files_ok (.inl rfl) (by decide) MphCountExample.hs_built hs_read 7#8

example := C54_hash_backoff (F := ℚ) fb8 sortQ_ok (-1000) (-100) (-100) 0 input8
  (by intro f hf; simp [MphProbExample.data] at hf; rcases hf with rfl | rfl | rfl <;> simp) codes8 unk8 hs_read' 7#8

end SizesExample

/-- The bytes of one order, of a file of 1000 bytes: 3 and 4 n-grams; nothing is printed about grams of the first order, and nothing
about pointers of the last. -/
example : (Option.bind (TrieCountStore.build exLib MphExample.mphf (GramsData.fastEF (fun _ => FastEF.exMphf) SaveExample.codec SaveExample.junkTable) RanksData.ic 0
      TrieCountExample.files2) fun
    | .ok s => some ((s.printSizes (F := ℚ) RankBytes.ic 1000).levels.map fun l => [(l.grams.map Prod.fst).getD 0, l.ranks.1, (l.ptrs.map Prod.fst).getD 0])
    | .error () => none) = some [[0, 82, 107], [99, 82, 0]] := by decide +kernel

/-- C54, defect: the number of bytes of the keys "per gram" is divided by the number of n-grams twice: for hashes of 8 bytes and 6
n-grams it is 8/6, not 8. -/
theorem C54_keys_per_gram_defect :
    (Option.bind (MphCount.build exLib 100 0 MphCountExample.hs (Spec.lines MphCountExample.files)) fun
      | .ok m => some (((m.printSizes 1000 : Sizes.HashPrinted ℚ).numGrams, (m.printSizes 1000 : Sizes.HashPrinted ℚ).keys.bytes,
          (m.printSizes 1000 : Sizes.HashPrinted ℚ).keys.perGram))
      | .error () => none) = some (6, 48, 4 / 3) := by decide +kernel

end Tongrams
