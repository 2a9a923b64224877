import Verif.Space
import Verif.PefSave

/-!
# C56 for backoff models

The files of backoff models: for each n-gram of a hash model a hash and its quantised values, for each n-gram of a trie its quantised values, its word and a
pointer; the codebooks; the vocabulary; the hash functions; and a constant number of bytes for each order.
-/

set_option linter.unusedSectionVars false

namespace Tongrams

/-! ## Specification -/

/-- The bits of the values of an n-gram of order `k + 1` in a backoff model of order `N`: two floats for a word; the number of a probability, of `pb` bits,
and of a backoff, of `bb` bits, for an n-gram that is not of the last order; the number of a probability for one of the last order. -/
def Spec.valueBits (pb bb N k : Nat) : Nat :=
  if k = 0 then 64 else if k + 1 = N then pb else pb + bb

/-- The bits of the floats that the numbers stand for: `2 ^ pb` probabilities for each order from 2, and `2 ^ bb` backoffs for each order from 2 but the last. -/
def Spec.codebookBits (pb bb N : Nat) : Nat := 32 * ((N - 1) * 2 ^ pb + (N - 2) * 2 ^ bb)

/-- The bits of all n-grams of order `k + 1` of a backoff trie: from order 2, the numbers of the probability and of the backoff and the word; the pointers
to the n-grams of the next order. -/
def Spec.backoffOrderBits {R : Type} (pb bb : Nat) (data : List (List R)) (k : Nat) : Nat :=
  let f := data.getD k []
  (if k = 0 then 0 else f.length * (Spec.valueBits pb bb data.length k + Nat.log2 (data.getD 0 []).length + 9)) +
  (if k + 1 = data.length then 0 else (f.length + 1) * (Nat.log2 ((data.getD (k + 1) []).length / (f.length + 1)) + 7))

namespace Space

/-- The codebooks have as many entries as there are numbers. -/
theorem codebooks_entries {K F : Type} [FloatArith F] {sort : List F → List F} {negInf : F} {pb bb : Nat}
    {data : List (List (List K × F × F))} {ps bs : List (List F)} (e : Quant.codebooks sort negInf pb bb data = some (.ok (ps, bs))) :
    (∀ l ∈ ps, l.length = 2 ^ pb) ∧ ∀ l ∈ bs, l.length = 2 ^ bb := by
  unfold Quant.codebooks at e
  obtain ⟨ps', e1, e⟩ := Res.bind_ok_iff e
  obtain ⟨bs', e2, e⟩ := Res.bind_ok_iff e
  cases e
  refine ⟨fun l hl => ?_, fun l hl => ?_⟩
  · obtain ⟨i, hi⟩ := List.mem_iff_getElem?.1 hl
    obtain ⟨f, -, e⟩ := Res.mapM_get? e1 i l hi
    unfold Quant.buildProbs at e
    split at e
    · have h1 := Quant.makeBins_length _ _ _ _ _ _ _ _ (Res.lift_ok_iff e)
      rw [List.length_nil] at h1
      omega
    · cases e
  · obtain ⟨i, hi⟩ := List.mem_iff_getElem?.1 hl
    obtain ⟨f, -, e⟩ := Res.mapM_get? e2 i l hi
    unfold Quant.buildBackoffs at e
    split at e
    · have h1 := Quant.makeBins_length _ _ _ _ _ _ _ _ (Res.lift_ok_iff e)
      rw [List.length_singleton] at h1
      have := Nat.two_pow_pos bb
      omega
    · cases e

theorem quantized_bits {F : Type} (fb : FloatBits F) (q : Nat) {cs : List (List F)} {n m : Nat} (hl : cs.length = n) (h : ∀ l ∈ cs, l.length = m) :
    8 * (saveQuantized fb q cs).length = 32 * (n * m) + 72 * n := by
  rw [Sizes.quantized_length]
  unfold quantizedBytes
  have : (cs.map fun s => s.length * 4) = cs.map fun _ => m * 4 := List.map_congr_left fun l hl => by rw [h l hl]
  rw [this, List.map_const', List.sum_replicate, hl]
  show 8 * (n * 1 + n * (m * 4) + 8 * n) = _
  rw [← Nat.mul_assoc]
  omega

/-- The two codebooks together. -/
theorem codebook_bits {K F : Type} [FloatArith F] (fb : FloatBits F) {sort : List F → List F} {negInf : F} {pb bb q q' : Nat}
    {data : List (List (List K × F × F))} {ps bs : List (List F)} (e : Quant.codebooks sort negInf pb bb data = some (.ok (ps, bs))) :
    8 * (saveQuantized fb q ps).length + 8 * (saveQuantized fb q' bs).length ≤ Spec.codebookBits pb bb data.length + 8 * 18 * data.length := by
  obtain ⟨q1, q2, -, -⟩ := Quant.codebooks_sizes e
  obtain ⟨c1, c2⟩ := codebooks_entries e
  rw [quantized_bits fb q q1 c1, quantized_bits fb q' q2 c2]
  unfold Spec.codebookBits
  rw [Nat.mul_add]
  omega

end Space

open Space in
/-- **C56** for hash backoff models: for each n-gram a hash of `B` bits and its values in `Spec.valueBits` bits; the codebooks; the hash functions; and at
most 100 bytes for each order. -/
theorem C56_hash_backoff_size {P : Type} [FloatArith P] {B : Nat} (fb : FloatBits P) {sort : List P → List P}
    (hsort : ∀ l, (sort l).Perm l ∧ (sort l).Pairwise (· ≤ ·)) (negInf default unk : P) {mem pb bb : Nat} (extra : Nat)
    {hs : Nat → Mphf (List Byte) B} {data : List (List (List (List Byte) × P × P))} (h : Spec.MphProbInput fb mem pb bb hs data)
    (c : Emphf (List Byte) B) (header : Byte) :
    ∃ m, MphProb.build fb sort negInf default unk mem extra hs pb bb (Spec.lines data) = some (.ok m) ∧
      8 * (saveFile header (m.save fb c bb)).length ≤
        ((List.range data.length).map fun k => (data.getD k []).length * (B + Spec.valueBits pb bb data.length k)).sum +
        Spec.codebookBits pb bb data.length + 8 * ((List.range data.length).map fun k => Spec.hashFunctionBytes c (hs k)).sum + 8 * 100 * data.length := by
  have hmin := h.arpa.order_min
  obtain ⟨ps, bs, q1, q2, -⟩ := Quant.codebooks_ok hsort negInf hmin h.quant
  obtain ⟨m, -, e1, -⟩ := MphProb.correct fb negInf default unk extra h q1 q2
  refine ⟨m, e1, ?_⟩
  have hB' : B = 32 ∨ B = 64 := by rcases h.bits with ⟨h, -⟩ | ⟨h, -⟩ <;> omega
  have hpb := h.quant.probs.1
  have e := e1
  unfold MphProb.build at e
  split at e
  · cases e
  obtain ⟨⟨ps', bs'⟩, e3, e⟩ := Res.bind_ok_iff e
  obtain ⟨f0, e4, e⟩ := Res.bind_ok_iff e
  obtain ⟨t0, e5, e⟩ := Res.bind_ok_iff e
  obtain ⟨ts, e6, e⟩ := Res.bind_ok_iff e
  cases e
  have hl : (Spec.lines data).length = data.length := List.length_map _
  have hcb := codebook_bits fb (q := pb) (q' := bb) e3
  rw [hl] at hcb
  have lt := Res.mapM_length e6
  rw [List.length_zipIdx, List.length_tail, hl] at lt
  have htab : ∀ {V : Type} {h : Mphf (List Byte) B} {w n : Nat} {value : V → Option W} {ix : List (List Byte × V)} {t : SVTable (List Byte) B}, 1 ≤ w →
      tableOf h w n value ix = some t → 8 * (t.save c).length ≤ n * (B + w) + 8 * Spec.hashFunctionBytes c h + 8 * 40 := by
    intro V h w n value ix t hw e
    unfold tableOf at e
    obtain ⟨b, d1, e⟩ := Option.bind_eq_some_iff.1 e
    obtain ⟨vs, -, e⟩ := Option.bind_eq_some_iff.1 e
    obtain ⟨b', d2, e⟩ := Option.bind_eq_some_iff.1 e
    have := packed_bits hB' (m := w - 1) d1 (by omega) d2 e c
    rwa [show B + (w - 1) + 1 = B + w by omega] at this
  have htb : ((t0 :: ts).map fun t => 8 * (t.save c).length).sum ≤
      total (fun k => (data.getD k []).length * (B + Spec.valueBits pb bb data.length k) + 8 * Spec.hashFunctionBytes c (hs k) + 8 * 40) data.length := by
    have hlen : (t0 :: ts).length = data.length := by rw [List.length_cons]; omega
    rw [← hlen]
    refine sum_le_total ?_
    intro k t ht
    have hk := (List.getElem?_eq_some_iff.1 ht).1
    have hf : data[k]? = some (data[k]'(by omega)) := List.getElem?_eq_getElem _
    generalize data[k]'(by omega) = f at hf
    have hfk : (Spec.lines data)[k]? = some (f.map fun r => (joinSp r.1, r.2)) := by rw [Spec.lines, List.getElem?_map, hf]; rfl
    rw [Space.getD_eq hf, hlen]
    cases k with
    | zero =>
      cases ht
      have e4 := Res.lift_ok_iff e4
      rw [List.head?_eq_getElem?, hfk] at e4
      cases e4
      have e5 := Res.lift_ok_iff e5
      unfold MphProb.buildVocabulary at e5
      obtain ⟨ix, -, e⟩ := Option.bind_eq_some_iff.1 e5
      have := htab (by omega) e
      rwa [List.length_map] at this
    | succ k =>
      rw [List.getElem?_cons_succ] at ht
      obtain ⟨⟨g, k'⟩, hp, e⟩ := Res.mapM_get? e6 k t ht
      rw [List.getElem?_zipIdx] at hp
      obtain ⟨p, hp', e0⟩ := Option.map_eq_some_iff.1 hp
      rw [List.getElem?_tail, hfk] at hp'
      cases hp'
      cases e0
      have e := Res.lift_ok_iff e
      unfold MphProb.buildTable at e
      obtain ⟨ix, -, e⟩ := Option.bind_eq_some_iff.1 e
      have := htab (by omega) e
      rw [List.length_map, hl, Nat.zero_add] at this
      have hw : (pb + if k + 1 + 1 ≠ data.length then bb else 0) = Spec.valueBits pb bb data.length (k + 1) := by
        unfold Spec.valueBits
        rw [if_neg (by omega : ¬ k + 1 = 0)]
        by_cases hk2 : k + 1 + 1 = data.length
        · rw [if_neg (not_not_intro hk2), if_pos hk2, Nat.add_zero]
        · rw [if_pos hk2, if_neg hk2]
      rwa [hw] at this
  have hlen8 : ∀ (o : Nat) (u : P), 8 * (saveFile header (MphProb.save fb c bb ⟨o, u, ps', bs', pb, t0 :: ts⟩)).length =
      48 + (8 * (saveQuantized fb pb ps').length + 8 * (saveQuantized fb bb bs').length) + ((t0 :: ts).map fun t => 8 * (t.save c).length).sum := by
    intro o u
    unfold saveFile MphProb.save
    have hF : ∀ x : P, (putF fb x).length = 4 := fun x => Sizes.length_putWord 4 _
    simp only [List.length_append, Sizes.length_putU, Sizes.length_putWord, Sizes.length_putAll, hF]
    rw [sum_mul8]
    omega
  rw [hlen8, Space.total_def, Space.total_def]
  simp only [total_add, total_const, total_mul] at htb ⊢
  omega

/-! ## Backoff tries -/

namespace Space

section trie
variable {K : Type} [DecidableEq K] {hr : Nat → Mphf Nat 64} {c' : Emphf Nat 64} {junk : UTable Nat 64} {R : RanksData}

/-- What `Stats.steps_of_levels` says of the words and pointers of all orders. -/
def Stepped (U : List K) (files : List (List (List K × Nat))) (ro : Nat) (arrs : List (ArrayStore (GramsData.fastEF hr c' junk) R)) : Prop :=
  ∀ (k : Nat) (pv curr : List (List K)), (files.map (·.map (·.1)))[k]? = some pv → (files.map (·.map (·.1)))[k + 1]? = some curr →
      ∃ (f : FastEF) (e : EF), FastEF.build (hr (k + 2)) (curr.map (Spec.storedId U ((files.map (·.map (·.1))).getD ro []) ro))
          (Spec.childPtrs List.dropLast curr pv) = some (.ok f) ∧
        ((Spec.childPtrs List.dropLast curr pv).getLast?.bind fun u => EF.build (Spec.childPtrs List.dropLast curr pv) u) = some (.ok e) ∧
        Stats.gramsAt arrs (k + 1) = some (some f) ∧ Stats.ptrsAt arrs k = some (some e)

theorem ptrs_bits {U : List K} {files : List (List (List K × Nat))} {ro : Nat} (h : Spec.CountFiles U files ro)
    {arrs : List (ArrayStore (GramsData.fastEF hr c' junk) R)} (hsteps : Stepped U files ro arrs) {k : Nat}
    {a : ArrayStore (GramsData.fastEF hr c' junk) R} {f g : List (List K × Nat)} (ha : arrs[k]? = some a) (hf : files[k]? = some f)
    (hg : files[k + 1]? = some g) (j : EF) :
    8 * (a.ptrs.getD j).save.length ≤ (f.length + 1) * (Nat.log2 (g.length / (f.length + 1)) + 7) + 8 * 131 := by
  have hp' : (files.map (·.map (·.1)))[k]? = some (f.map (·.1)) := by rw [List.getElem?_map, hf]; rfl
  have hg' : (files.map (·.map (·.1)))[k + 1]? = some (g.map (·.1)) := by rw [List.getElem?_map, hg]; rfl
  obtain ⟨x, e0, -, d2, -, d4⟩ := hsteps k _ _ hp' hg'
  unfold Stats.ptrsAt at d4
  rw [ha] at d4
  have hap : a.ptrs = some e0 := Option.some.inj d4
  rw [hap]
  obtain ⟨ptrs, -, q2, q3, q4, -⟩ :=
    C38_pointers_delimit_children (pat := List.dropLast) (Trie.lex_irrefl U) (Trie.lex_trans U) (h.data.sorted k _ hp')
      (Trie.patterns_sorted (h.data.len _ _ hg') (h.data.words _ _ hg') (h.data.sorted _ _ hg')) (h.data.prefix_closed k _ _ hp' hg')
  rw [← q2] at d2
  rw [q4.last, Option.bind_some] at d2
  have hle : ∀ v ∈ ptrs, v ≤ (g.map (·.1)).length := by
    have h2 := q4.last
    intro q hq
    obtain ⟨i, hi, rfl⟩ := List.getElem_of_mem hq
    rw [List.getLast?_eq_getElem?] at h2
    obtain ⟨l1, l2⟩ := List.getElem?_eq_some_iff.1 h2
    rw [← l2]
    by_cases hil : i = ptrs.length - 1
    · simp only [hil, Nat.le_refl]
    · exact List.pairwise_iff_getElem.1 q4.sorted _ _ hi l1 (by omega)
  have hgl := TrieCount.len_of_size h (List.mem_of_getElem? hg)
  obtain ⟨e', l, b1, b2, b3⟩ := C56_ef_sequence_size (vs := ptrs) (by intro e0; rw [e0] at q3; simp at q3) q4.sorted hle
    (by rw [List.length_map]; omega)
  rw [d2] at b1
  cases b1
  rw [q3, List.length_map] at b2 b3
  rw [List.length_map] at b2
  have hl : l ≤ Nat.log2 (g.length / (f.length + 1)) := by
    apply le_log2_of
    rcases b2 with b2 | b2
    · exact .inl b2
    · exact .inr ((Nat.le_div_iff_mul_le (by omega)).2 b2)
  have := Nat.mul_le_mul_left (f.length + 1) (Nat.add_le_add_right hl 7)
  simp only [Option.getD_some]
  omega

set_option maxHeartbeats 1000000 in
theorem grams_bits {U : List K} {files : List (List (List K × Nat))} {ro : Nat} (h : Spec.CountFiles U files ro) (hh : Spec.RangeHashes hr files)
    (hju : junk.values.bits = [])
    {arrs : List (ArrayStore (GramsData.fastEF hr c' junk) R)} (hsteps : Stepped U files ro arrs) {k : Nat}
    {a : ArrayStore (GramsData.fastEF hr c' junk) R} {f : List (List K × Nat)} (ha : arrs[k + 1]? = some a) (hf : files[k + 1]? = some f)
    (j : FastEF) :
    8 * (GramsData.save (GramsData.fastEF hr c' junk) (a.grams.getD j)).length ≤ f.length * (Nat.log2 U.length + 9) + 8 * 148 + 8 * Spec.savedFunctionBytes a := by
  have hk := (List.getElem?_eq_some_iff.1 hf).1
  have hp : files[k]? = some (files[k]'(by omega)) := List.getElem?_eq_getElem _
  generalize files[k]'(by omega) = p at hp
  have hp' : (files.map (·.map (·.1)))[k]? = some (p.map (·.1)) := by rw [List.getElem?_map, hp]; rfl
  have hg' : (files.map (·.map (·.1)))[k + 1]? = some (f.map (·.1)) := by rw [List.getElem?_map, hf]; rfl
  obtain ⟨x, e0, d1, -, d3, -⟩ := hsteps k _ _ hp' hg'
  unfold Stats.gramsAt at d3
  rw [ha] at d3
  have hag : a.grams = some x := Option.some.inj d3
  obtain ⟨ptrs, -, q2, q3, q4, -⟩ :=
    C38_pointers_delimit_children (pat := List.dropLast) (Trie.lex_irrefl U) (Trie.lex_trans U) (h.data.sorted k _ hp')
      (Trie.patterns_sorted (h.data.len _ _ hg') (h.data.words _ _ hg') (h.data.sorted _ _ hg')) (h.data.prefix_closed k _ _ hp' hg')
  subst q2
  have hlr : ro ≠ 0 → ro < k + 1 → (files.map (·.map (·.1)))[ro]? = some ((files.map (·.map (·.1))).getD ro []) := by
    intro _ hlt
    have : (files.map (·.map (·.1)))[ro]? = some ((files.map (·.map (·.1)))[ro]'(by rw [List.length_map]; omega)) := List.getElem?_eq_getElem _
    rw [Trie.getD_eq this]; exact this
  have hfm := List.mem_of_getElem? hf
  have hsz' := h.size f hfm
  have hsl := TrieCount.len_of_size h hfm
  obtain ⟨y, l, b1, b2, b3⟩ := C56_fast_ef_size (h := hr (k + 2)) (grams := (f.map (·.1)).map (Spec.storedId U ((files.map (·.map (·.1))).getD ro []) ro))
    (ptrs := Spec.childPtrs List.dropLast (f.map (·.1)) (p.map (·.1))) (M := U.length) (by
      intro e0; exact h.data.nonempty _ _ hg' (List.map_eq_nil_iff.1 e0)) (by rw [List.length_map]; exact q4) (Trie.rangeSorted h.data hp' hg' hlr) (by
      intro v hv
      obtain ⟨q, hq, rfl⟩ := List.mem_map.1 hv
      exact Nat.le_of_lt (Trie.storedId_bound h.data hg' hlr hq)) (by rw [List.length_map, List.length_map]; omega)
    (by rw [List.length_map, List.length_map]; omega) (hh k p f hp hf) c' hju
  rw [d1] at b1
  cases b1
  rw [List.length_map, List.length_map] at b3
  have hl := le_log2_of b2
  have := Nat.mul_le_mul_left f.length (Nat.add_le_add_right hl 9)
  have hsf : Spec.savedFunctionBytes a = Spec.hashFunctionBytes c' ((FastEF.offsets x).getD junk).h := by
    unfold Spec.savedFunctionBytes
    rw [hag]
  rw [hag, hsf]
  show 8 * (FastEF.save c' junk x).length ≤ _
  omega

end trie

/-- A table of two vectors of `n` values. -/
theorem dv_bits {K : Type} {h : Mphf K 64} {keys : List K} {v1 v2 : CompactVector} {t : DVTable K 64}
    (e : DVTable.build h keys v1 v2 = some t) (c : Emphf K 64) {m : Nat} (h1 : v1.width ≤ m + 1) (h2 : v2.width ≤ 64) :
    8 * (t.save c).length ≤ keys.length * (64 + (m + 1) + 64) + 8 * Spec.hashFunctionBytes c h + 8 * 56 := by
  unfold DVTable.build at e
  obtain ⟨b, e1, e⟩ := Option.bind_eq_some_iff.1 e
  obtain ⟨vs1, -, e⟩ := Option.bind_eq_some_iff.1 e
  obtain ⟨vs2, -, e⟩ := Option.bind_eq_some_iff.1 e
  obtain ⟨b', e2, e⟩ := Option.map_eq_some_iff.1 e
  cases e
  obtain ⟨s1, s2, s3, s4, s5, s6⟩ := DVTable.fill_sizes _ _ _ _ _ _ e2
  unfold CTBuilder.new at e1
  split at e1
  · cases e1
  rename_i hw
  cases e1
  simp only [(BVBuilder.new_sizes _ _).1, (BVBuilder.new_sizes _ _).2] at s1 s2 s3 s4 s5 s6
  have hx : ctWidth 64 = 64 := rfl
  have hy : ctWidth v1.width ≤ m + 1 := by unfold ctWidth; split <;> omega
  have hz : ctWidth v2.width ≤ 64 := by unfold ctWidth; split <;> omega
  rw [Sizes.dv_length]
  unfold DVTable.dataBytes CTVec.bytes BitVector.bytes
  rw [hx] at s6
  have hm : keys.length * (64 + ctWidth v1.width + ctWidth v2.width) ≤ keys.length * (64 + (m + 1) + 64) := Nat.mul_le_mul_left _ (by omega)
  generalize keys.length * (64 + ctWidth v1.width + ctWidth v2.width) = y at *
  generalize keys.length * (64 + (m + 1) + 64) = z at *
  unfold wordsFor at s6
  simp only [CTBuilder.build, BitVector.ofBuilder]
  omega

theorem probVocab_bits {K F : Type} {fb : FloatBits F} {hv : Mphf K 64} {words : List K} {vals : List (F × F)} {t : DVTable K 64}
    (e : buildProbVocab fb hv words vals = some t) (c : Emphf K 64) :
    8 * (t.save c).length ≤ words.length * (64 + (Nat.log2 words.length + 1) + 64) + 8 * Spec.hashFunctionBytes c hv + 8 * 56 := by
  unfold buildProbVocab at e
  obtain ⟨b, d1, e⟩ := Option.bind_eq_some_iff.1 e
  obtain ⟨b', d2, e⟩ := Option.bind_eq_some_iff.1 e
  obtain ⟨v, d3, e⟩ := Option.bind_eq_some_iff.1 e
  obtain ⟨v', d4, e⟩ := Option.bind_eq_some_iff.1 e
  have s1 := new_words (m := Nat.log2 words.length) d1 (by
    apply ceilLog2_le_log2
    rw [BitVec.toNat_ofNat]
    exact Nat.mod_le _ _)
  have s2 := CVBuilder.fill_sizes _ _ _ d2
  have s3 := new_words (m := 63) d3 (by omega)
  have s4 := CVBuilder.fill_sizes _ _ _ d4
  exact dv_bits e c (by show b'.width ≤ _; omega) (by show v'.width ≤ _; omega)

theorem log2_pow_sub {n : Nat} (h : 1 ≤ n) : Nat.log2 (2 ^ n - 1) + 1 ≤ n := by
  have hlt : 1 < 2 ^ n := Nat.one_lt_two_pow (by omega)
  have := (Nat.log2_lt (n := 2 ^ n - 1) (k := n) (by omega)).2 (by omega)
  omega

end Space

set_option maxHeartbeats 1000000 in
open Space in
/-- **C56** for backoff tries: the file has at most the bits of `Spec.backoffOrderBits` for each order; for each word of the vocabulary a hash of 64 bits, an
id of `log2 |V| + 1` bits and two floats; the codebooks; the hash functions; and at most 512 bytes for each order. -/
theorem C56_backoff_trie_size {K P : Type} [DecidableEq K] [FloatArith P] (fb : FloatBits P) {sort : List P → List P}
    (hsort : ∀ l, (sort l).Perm l ∧ (sort l).Pairwise (· ≤ ·)) (negInf : P) (unkWord : K) (default unk : P) {U : List K}
    {data : List (List (List K × P × P))} {ro pb bb : Nat} (h : Spec.ProbFiles U data ro) (hq : Spec.Quantisable data pb bb) (hbits : pb + bb ≤ 58)
    {hv : Mphf K 64} (hb : hv.BuiltFrom U) {hr : Nat → Mphf Nat 64} (hh : Spec.RangeHashes hr (TrieProb.asCounts data))
    (c : Emphf K 64) (c' : Emphf Nat 64) {junk : UTable Nat 64} (hju : junk.values.bits = [])
    {j : Junk (GramsData.fastEF hr c' junk) RanksData.cv} (hj : Spec.Unbuilt j.ptrs) (header : Byte) :
    ∃ s : TrieProbStore K P (GramsData.fastEF hr c' junk) RanksData.cv,
      TrieProbStore.build fb sort negInf unkWord default hv _ _ ro unk pb bb data = some (.ok s) ∧
      8 * (saveFile header (s.save fb c j bb)).length ≤ ((List.range data.length).map (Spec.backoffOrderBits pb bb data)).sum +
        U.length * (64 + (Nat.log2 U.length + 1) + 64) + Spec.codebookBits pb bb data.length + 8 * Spec.hashFunctionBytes c hv +
        8 * (s.arrs.map Spec.savedFunctionBytes).sum + 8 * 512 * data.length := by
  have hcf := TrieProb.asCounts_ok h
  have hlev := TrieProb.asCounts_map data
  have hmin := h.arpa.order_min
  obtain ⟨ps, bs, q1, q2, -⟩ := Quant.codebooks_ok hsort negInf h.arpa.order_min hq
  obtain ⟨t, e1, hg, -⟩ := TrieProb.build_ok fb negInf unkWord default unk h hb hh (junk := fun _ => [0#64]) (by simp) hbits q1 q2
  have key : Res.map (TrieProbStore.toModel [0#64])
      (TrieProbStore.build fb sort negInf unkWord default hv (GramsData.fastEF hr c' junk) RanksData.cv ro unk pb bb data) =
      TrieProb.build fb sort negInf unkWord default hv (GramsImpl.fastEF hr) (RanksImpl.cv fun _ => [0#64]) ro unk pb bb data := by
    rw [← TrieProbStore.build_impl, GramsData.fastEF_impl, RanksData.cv_impl]
  obtain ⟨s, hs, hord, hlaid⟩ := Stats.prob_laid (c' := c') (junk := junk) fb hsort negInf unkWord default unk h hq hbits hb hh
  refine ⟨s, hs, ?_⟩
  rw [hs, e1] at key
  have ht : s.toModel [0#64] = t := by simpa [Res.map, Res.bind] using key
  subst ht
  clear key e1
  have e := hs
  unfold TrieProbStore.build at e
  split at e
  · cases e
  obtain ⟨⟨ps', bs'⟩, e1, e⟩ := Res.bind_ok_iff e
  obtain ⟨f0, e2, e⟩ := Res.bind_ok_iff e
  obtain ⟨t, e3, e⟩ := Res.bind_ok_iff e
  obtain ⟨rks, e4, e⟩ := Res.bind_ok_iff e
  obtain ⟨arrs, e5, e⟩ := Res.bind_ok_iff e
  cases e
  have hf0 : data[0]? = some f0 := by rw [← List.head?_eq_getElem?]; exact Res.lift_ok_iff e2
  obtain ⟨r1, -⟩ := TrieProb.rankLevels_sizes _ _ _ (Res.lift_ok_iff e4)
  rw [List.length_tail] at r1
  obtain ⟨rks', hrl, hB, -⟩ := hg.built
  have hU0 := h.trie.unigrams
  rw [List.getElem?_map, hf0] at hU0
  have hU1 : f0.map (·.1.reverse) = U.map fun w => [w] := Option.some.inj hU0
  have hfl : f0.length = U.length := by simpa using congrArg List.length hU1
  have hla : (TrieProb.asCounts data).length = data.length := List.length_map _
  have hvoc : ∀ w ∈ U, (t.lookupPair w).map (fun p => p.1.toNat) = some (U.idxOf w) := by
    intro w hw
    have : [w] ∈ f0.map (·.1.reverse) := by rw [hU1]; exact List.mem_map.2 ⟨w, hw, rfl⟩
    obtain ⟨r, hr, hrw⟩ := List.mem_map.1 this
    obtain ⟨x, x1, x2⟩ := hg.voc f0 hf0 r hr w (by rw [← List.reverse_reverse r.1, hrw]; rfl)
    have x1' : t.lookupPair w = _ := x1
    rw [x1', Option.map_some, x2]
  have hrest : ((data.tail.map (·.map (·.1.reverse))).zip (rks.zip ((List.range data.tail.length).map fun i =>
      pb + if i + 2 = data.length then 0 else bb))).map (·.1) = ((TrieProb.asCounts data).map (·.map (·.1))).tail := by
    refine Eq.trans (List.map_fst_zip (by simp; omega)) ?_
    rw [hlev, List.map_tail]
  have hsteps : Stepped U (TrieProb.asCounts data) ro arrs := by
    intro k pv curr h1 h2
    obtain ⟨x, y, d1, d2, d3, d4, -, -⟩ := Stats.steps_of_levels hcf h.remapping hh hvoc (rks := rks') (by rw [hla]; exact hrl) (mem := [0#64])
      (by rw [hlev, hla]; exact hB) (by rw [hlev, List.getElem?_map, hf0]; rfl) hrest (by rw [hfl] at e5; exact e5) k pv curr h1 h2
    exact ⟨x, y, d1, d2, d3, d4⟩
  have hlenA : arrs.length = data.length := by rw [hlaid.len, List.length_map]
  have has : ∀ (k : Nat) (f : List (List K × P × P)), data[k]? = some f → ∃ g, (TrieProb.asCounts data)[k]? = some g ∧ g.length = f.length := by
    intro k f hf
    exact ⟨_, by rw [TrieProb.asCounts, List.getElem?_map, hf]; rfl, by rw [List.length_map]⟩
  -- the codebooks and the vocabulary
  have hcb := codebook_bits fb (q := pb) (q' := bb) e1
  rw [q1] at e1
  cases e1
  have hvb : 8 * (t.save c).length ≤ U.length * (64 + (Nat.log2 U.length + 1) + 64) + 8 * Spec.hashFunctionBytes c hv + 8 * 56 := by
    have hU2 : f0.filterMap (·.1.head?) = U := by
      have : ∀ (l : List (List K × P × P)) (V : List K), l.map (·.1.reverse) = V.map (fun w => [w]) → l.filterMap (·.1.head?) = V := by
        intro l
        induction l with
        | nil => intro V hV; cases V with
          | nil => rfl
          | cons => cases hV
        | cons r l ih => intro V hV; cases V with
          | nil => cases hV
          | cons w V =>
            obtain ⟨x1, x2⟩ := List.cons.inj hV
            replace x1 : r.1.reverse = [w] := x1
            have hr : r.1 = [w] := by rw [← List.reverse_reverse r.1, x1]; rfl
            rw [List.filterMap_cons, hr, ih V x2]
            rfl
      exact this f0 U hU1
    have e3 := Res.lift_ok_iff e3
    rw [hU2] at e3
    exact probVocab_bits e3 c
  -- the ranks
  obtain ⟨w1, w2⟩ := buildLevels_ranks _ 1 _ _ _ (by omega) e5
  obtain ⟨rks2, k1, k2, k3⟩ := TrieProb.rankLevels_ok q2 0 data.tail (by rw [List.drop_one])
  rw [Nat.zero_add] at k1
  have e4 := Res.lift_ok_iff e4
  rw [k1] at e4
  cases e4
  have hranks : ∀ (k : Nat) (a : ArrayStore (GramsData.fastEF hr c' junk) RanksData.cv) (f : List (List K × P × P)), arrs[k + 1]? = some a → data[k + 1]? = some f →
      8 * (RanksData.cv.save (a.ranks.getD j.ranks)).length ≤ f.length * Spec.valueBits pb bb data.length (k + 1) + 8 * 40 := by
    intro k a f ha hf
    have hk := (List.getElem?_eq_some_iff.1 hf).1
    have hrs : rks[k]? = some (rks[k]'(by rw [k2, List.length_tail]; omega)) := List.getElem?_eq_getElem _
    generalize rks[k]'(by rw [k2, List.length_tail]; omega) = rs at hrs
    have hft : data.tail[k]? = some f := by rw [List.getElem?_tail]; exact hf
    obtain ⟨x1, x2⟩ := k3 k f rs hft hrs
    have hvw : (pb + if k + 2 = data.length then 0 else bb) = Spec.valueBits pb bb data.length (k + 1) := by
      unfold Spec.valueBits
      rw [if_neg (by omega : ¬ k + 1 = 0)]
      by_cases hk2 : k + 2 = data.length
      · rw [if_pos hk2, if_pos hk2, Nat.add_zero]
      · rw [if_neg hk2, if_neg hk2]
    have hpb := hq.probs.1
    have hw58 : 1 ≤ Spec.valueBits pb bb data.length (k + 1) ∧ Spec.valueBits pb bb data.length (k + 1) ≤ 58 := by
      rw [← hvw]; split <;> omega
    rw [← hvw] at hw58
    have hlt : ∀ v ∈ rs, v < 2 ^ (pb + if k + 2 = data.length then 0 else bb) := by
      intro v hv
      obtain ⟨i, hi, rfl⟩ := List.getElem_of_mem hv
      obtain ⟨r, hr, hri⟩ : ∃ r, f[i]? = some r ∧ r ∈ f := ⟨_, List.getElem?_eq_getElem (by omega), List.getElem_mem _⟩
      obtain ⟨rk, y1, y2⟩ := x2 i r hr
      rw [List.getElem?_eq_getElem hi] at y1
      cases y1
      obtain ⟨rk', z1, z2, -⟩ := Quant.rankPair_ok q2 hf hri
      rw [Nat.zero_add] at y2
      rw [y2] at z1
      cases z1
      exact z2
    rw [← hvw]
    generalize hwd : (pb + if k + 2 = data.length then 0 else bb) = wd at *
    have hpow : 2 ^ wd ≤ 2 ^ 58 := Nat.pow_le_pow_right (by omega) hw58.2
    have hpk : packCV wd rs = some rs := Trie.packCV_eq (by omega) hlt
    have hz : ((data.tail.map (·.map (·.1.reverse))).zip (rks.zip ((List.range data.tail.length).map fun i =>
        pb + if i + 2 = data.length then 0 else bb)))[k]? = some (f.map (·.1.reverse), rs, wd) := by
      rw [List.getElem?_zip_eq_some (z := (_, _))]
      refine ⟨by rw [List.getElem?_map, hft]; rfl, ?_⟩
      rw [List.getElem?_zip_eq_some (z := (_, _))]
      refine ⟨hrs, ?_⟩
      rw [List.getElem?_map, List.getElem?_range (by rw [List.length_tail]; omega), Option.map_some, hwd]
    obtain ⟨rs', d, d1, d2, d3⟩ := w2 k _ _ _ hz
    rw [hpk] at d1
    cases d1
    unfold ranksAt at d3
    rw [show 1 + k = k + 1 by omega, ha] at d3
    have hd : a.ranks = some d := Option.some.inj d3
    rw [hd]
    have d2 := Res.lift_ok_iff d2
    obtain ⟨cv, g1, g2⟩ := C56_compact_vector_size (vs := rs.map (BitVec.ofNat 64)) (m := 2 ^ wd - 1) (by omega) (by
      intro v hv
      obtain ⟨x, hx, rfl⟩ := List.mem_map.1 hv
      have := hlt x hx
      rw [BitVec.toNat_ofNat]
      have := Nat.mod_le x (2 ^ 64)
      omega)
    rw [d2] at g1
    cases g1
    rw [List.length_map, x1] at g2
    have := Nat.mul_le_mul_left f.length (log2_pow_sub (n := wd) hw58.1)
    show 8 * (CompactVector.save d).length ≤ _
    omega
  -- the orders
  have harr : 8 * (ArrayStore.saveAll j false arrs).length ≤ total (fun k => Spec.backoffOrderBits pb bb data k + 8 * 327) data.length +
      8 * (arrs.map Spec.savedFunctionBytes).sum := by
    have hsa := saveAll_bits (j := j) (fr := false) (l := arrs) (f := fun k => Spec.backoffOrderBits pb bb data k + 8 * 327) ?_
    · rwa [hlenA] at hsa
    · intro k a ha
      have hk := (List.getElem?_eq_some_iff.1 ha).1
      have hf : data[k]? = some (data[k]'(by omega)) := List.getElem?_eq_getElem _
      generalize data[k]'(by omega) = f at hf
      obtain ⟨f', hf', hfl'⟩ := has k f hf
      have hptr : 8 * (a.ptrs.getD j.ptrs).save.length ≤
          (if k + 1 = data.length then 0 else (f.length + 1) * (Nat.log2 ((data.getD (k + 1) []).length / (f.length + 1)) + 7)) + 8 * 131 := by
        by_cases hkl : k + 1 = data.length
        · rw [if_pos hkl]
          obtain ⟨i1, i2, i3, i4, i5⟩ := Stats.buildLevels_inv _ 1 _ _ _ (by omega) e5
          have hrl2 := congrArg List.length hrest
          rw [List.length_map, List.length_tail (l := List.map _ (TrieProb.asCounts data)), List.length_map, hla] at hrl2
          have := i4 k (.inr (by rw [hrl2]; omega))
          unfold Stats.ptrsAt at this
          rw [ha, List.getElem?_map, hf] at this
          have : a.ptrs = none := Option.some.inj this
          rw [this]
          have := unbuilt_bits hj
          simp only [Option.getD_none]
          omega
        · rw [if_neg hkl]
          have hg : data[k + 1]? = some (data[k + 1]'(by omega)) := List.getElem?_eq_getElem _
          generalize data[k + 1]'(by omega) = g at hg
          obtain ⟨g', hg', hgl'⟩ := has (k + 1) g hg
          rw [Space.getD_eq hg]
          have := ptrs_bits hcf hsteps ha hf' hg' j.ptrs
          rwa [hfl', hgl'] at this
      unfold Spec.backoffOrderBits
      rw [Space.getD_eq hf, Space.getD_eq hf0, hfl]
      unfold ArrayStore.save
      simp only [List.length_append, Sizes.length_putU]
      generalize (if k + 1 = data.length then 0 else (f.length + 1) * (Nat.log2 ((data.getD (k + 1) []).length / (f.length + 1)) + 7)) = pp at *
      cases k with
      | zero =>
        rw [if_neg (by omega), if_pos rfl]
        simp only [if_pos, List.length_nil, Bool.false_eq_true, if_false]
        omega
      | succ k =>
        have r1 := hranks k a f ha hf
        have r2 := grams_bits hcf hh hju hsteps ha hf' j.grams
        rw [hfl'] at r2
        simp only [if_neg (by omega : ¬ k + 1 = 0), if_pos (by omega : k + 1 + 1 ≠ 1), if_true]
        rw [show Spec.valueBits pb bb data.length (k + 1) + Nat.log2 U.length + 9 = Spec.valueBits pb bb data.length (k + 1) + (Nat.log2 U.length + 9) by omega,
          Nat.mul_add f.length]
        omega
  have hlen8 : ∀ (o : Nat) (u : P), 8 * (saveFile header (TrieProbStore.save fb c j bb ⟨o, ro, u, t, arrs, ps, bs, pb⟩)).length =
      56 + (8 * (saveQuantized fb pb ps).length + 8 * (saveQuantized fb bb bs).length) + 8 * (t.save c).length + 8 * (ArrayStore.saveAll j false arrs).length := by
    intro o u
    unfold saveFile TrieProbStore.save
    have hF : ∀ x : P, (putF fb x).length = 4 := fun x => Sizes.length_putWord 4 _
    simp only [List.length_append, Sizes.length_putU, Sizes.length_putWord, hF]
    omega
  rw [hlen8, Space.total_def]
  simp only [total_add, total_const] at harr ⊢
  show _ ≤ total (Spec.backoffOrderBits pb bb data) data.length + _ + _ + _ + _ + _
  replace harr : 8 * (ArrayStore.saveAll j false arrs).length ≤ total (Spec.backoffOrderBits pb bb data) data.length + data.length * (8 * 327) +
      8 * (arrs.map Spec.savedFunctionBytes).sum := harr
  omega

/-! ## Concrete cases -/

open FilesExample SaveExample EndExample StatsExample in
/-- The hypotheses of C56 for hash backoff models are met by the sections of C28's example. -/
example := C56_hash_backoff_size fb8 TrieProbExample.sortQ_ok (-1000) (-100) (-100) 0 input8 (codecOf [(MphProbExample.hs 0).hasher]) 7#8

open FilesExample SaveExample EndExample StatsExample in
/-- The hypotheses of C56 for backoff tries are met by the same sections. -/
example := C56_backoff_trie_size fb8 TrieProbExample.sortQ_ok (-1000) unkBytes (-100) (-100) MphProbExample.data_trie MphProbExample.data_input.quant (by decide)
  (TextExample.built3 (keys := U) rfl (by decide)) MphProbExample.data_hashes (codecOf [(TextExample.mphf3 U).hasher]) codec (junk := junkTable) rfl
  (j := empty RanksData.cv cvJunk _) ⟨rfl, rfl, rfl⟩ 7#8

end Tongrams
