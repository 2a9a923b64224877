import Verif.SpacePef

/-! # Space of backoff tries whose sequences queries change (C56) -/

set_option linter.unusedSectionVars false

namespace Tongrams

/-- The bits of order `k + 1` of a backoff trie with `gramBits` bits for the word of an n-gram: the word and the values of each n-gram, and the pointers to
the n-grams that extend it.  The values of the words of the vocabulary are stored with the vocabulary. -/
def Spec.backoffBits {R : Type} (pb bb gramBits : Nat) (data : List (List R)) (k : Nat) : Nat :=
  let f := data.getD k []
  (if k = 0 then 0 else f.length * (Spec.valueBits pb bb data.length k + gramBits)) +
  (if k + 1 = data.length then 0 else (f.length + 1) * (Nat.log2 ((data.getD (k + 1) []).length / (f.length + 1)) + 7))

namespace Space
section st
variable {K : Type} [DecidableEq K] {G : GramsSt} {F : GramsFile G}

open PefStats

set_option maxHeartbeats 1000000 in
/-- The size of a backoff trie over any gram sequence whose size is known. -/
theorem st_prob_size {P : Type} [FloatArith P] {I : GramsImpl} {J : RanksImpl} {junk : Nat → List W} {jr : CompactVector}
    (hG : ∀ ord ids ptrs, G.Implements I ord ids ptrs) (hR : ∀ ord ranks, (RanksData.cv.st junk).Implements J ord ranks)
    (hF : F.Keeps) {fn : Option G.S → Nat} (hfn : G.Keeps fn) {gb : Nat} (fb : FloatBits P) {sort : List P → List P}
    (hsort : ∀ l, (sort l).Perm l ∧ (sort l).Pairwise (· ≤ ·)) (negInf : P) (unkWord : K) (default unk : P) {U : List K}
    {data : List (List (List K × P × P))} {ro pb bb : Nat} (h : Spec.ProbFiles U data ro) (hq : Spec.Quantisable data pb bb) (hbits : pb + bb ≤ 58)
    (hgs : GramsSized G F fn gb U ((TrieProb.asCounts data).map (·.map (·.1))) ro) {hv : Mphf K 64}
    {t : TrieProb K P} (e : TrieProb.build fb sort negInf unkWord default hv I J ro unk pb bb data = some (.ok t))
    {rks' : List (List Nat)} (hrl : rks'.length + 1 = data.length) {ex : List K → Nat → Prop}
    (hB : Trie.Built ex U (data.map (·.map (·.1.reverse))) ro rks' t.arrs (data.length - 1))
    (hvoc : ∀ w ∈ U, (t.voc.lookupPair w).map (fun p => p.1.toNat) = some (U.idxOf w)) (c : Emphf K 64) {jp : EF} (hj : Spec.Unbuilt jp) (header : Byte) :
    ∃ t', StProb.build fb sort negInf unkWord default hv G (RanksData.cv.st junk) ro unk pb bb data = some (.ok t') ∧
      8 * (saveFile header (t'.save F (RanksFile.data RanksData.cv junk jr) jp fb c bb)).length ≤
        ((List.range data.length).map (Spec.backoffBits pb bb gb data)).sum +
        U.length * (64 + (Nat.log2 U.length + 1) + 64) + Spec.codebookBits pb bb data.length + 8 * Spec.hashFunctionBytes c hv +
        8 * (t'.arrs.map fun a => fn a.grams).sum + 8 * 512 * data.length := by
  have hcf := TrieProb.asCounts_ok h
  have hlev := TrieProb.asCounts_map data
  have hmin := h.arpa.order_min
  have hla : (TrieProb.asCounts data).length = data.length := List.length_map _
  obtain ⟨ps, bs, q1, q2, -⟩ := Quant.codebooks_ok hsort negInf h.arpa.order_min hq
  have hkeep : G.Keeps (Option.map fun s => (F.save (some s), fn (some s))) := by
    intro s b e id r s' hs
    simp only [Option.map_some]
    rw [hF s b e id r s' hs, hfn s b e id r s' hs]
  obtain ⟨t', hs, -, hV⟩ := PefStats.prob_vlaid (kg := Option.map fun s => (F.save (some s), fn (some s))) (R := RanksData.cv.st junk) hG hR hkeep rfl
    (H := fun d vals => 8 * d.1.length ≤ vals.length * gb + 8 * 148 + 8 * d.2) h (by
      rw [← hlev]
      intro k pv curr s hp' hg' hs
      refine ⟨_, rfl, ?_⟩
      have := hgs k pv curr s hp' hg' hs
      obtain ⟨ptrs, -, q2, -, q4, -⟩ :=
        C38_pointers_delimit_children (pat := List.dropLast) (Trie.lex_irrefl U) (Trie.lex_trans U) (hcf.data.sorted k _ hp')
          (Trie.patterns_sorted (hcf.data.len _ _ hg') (hcf.data.words _ _ hg') (hcf.data.sorted _ _ hg')) (hcf.data.prefix_closed k _ _ hp' hg')
      subst q2
      have hl := (FastEF.absVals_grouped (grams := curr.map (Spec.storedId U (((TrieProb.asCounts data).map (·.map (·.1))).getD ro []) ro))
        (by rw [List.length_map]; exact q4)).length
      rw [hl, List.length_map]
      exact this) fb e hrl hB hvoc
  refine ⟨t', hs, ?_⟩
  rw [← hlev] at hV
  have hgrams := fun (k : Nat) (a : StArray G (RanksData.cv.st junk)) (f : List (List K × Nat)) (ha : t'.arrs[k]? = some a)
    (hf : (TrieProb.asCounts data)[k]? = some f) => gramsSt_bits (F := F) hcf hV ha hf
  have hlenA : t'.arrs.length = data.length := by have := hV.len; rwa [List.length_map, List.length_map, hla] at this
  clear e hB hvoc hV
  have e := hs
  unfold StProb.build at e
  split at e
  · cases e
  obtain ⟨⟨ps', bs'⟩, e1, e⟩ := Res.bind_ok_iff e
  obtain ⟨f0, e2, e⟩ := Res.bind_ok_iff e
  obtain ⟨t, e3, e⟩ := Res.bind_ok_iff e
  obtain ⟨rks, e4, e⟩ := Res.bind_ok_iff e
  obtain ⟨arrs, e5, e⟩ := Res.bind_ok_iff e
  cases e
  have hf0 : data[0]? = some f0 := by rw [← List.head?_eq_getElem?]; exact Res.lift_ok_iff e2
  obtain ⟨r1, -⟩ := TrieProb.rankLevels_sizes _ _ _ (Res.lift_ok_iff e4)
  rw [List.length_tail] at r1
  have hU0 := h.trie.unigrams
  rw [List.getElem?_map, hf0] at hU0
  have hU1 : f0.map (·.1.reverse) = U.map fun w => [w] := Option.some.inj hU0
  have hfl : f0.length = U.length := by simpa using congrArg List.length hU1
  have hrest : ((data.tail.map (·.map (·.1.reverse))).zip (rks.zip ((List.range data.tail.length).map fun i =>
      pb + if i + 2 = data.length then 0 else bb))).map (·.1) = ((TrieProb.asCounts data).map (·.map (·.1))).tail := by
    refine Eq.trans (List.map_fst_zip (by simp; omega)) ?_
    rw [hlev, List.map_tail]
  have has : ∀ (k : Nat) (f : List (List K × P × P)), data[k]? = some f → ∃ g, (TrieProb.asCounts data)[k]? = some g ∧ g.length = f.length ∧
      g.map (·.1) = f.map (·.1.reverse) := by
    intro k f hf
    exact ⟨_, by rw [TrieProb.asCounts, List.getElem?_map, hf]; rfl, by rw [List.length_map], by rw [List.map_map]; rfl⟩
  -- the codebooks and the vocabulary
  have hcb := codebook_bits fb (q := pb) (q' := bb) e1
  rw [q1] at e1
  cases e1
  have hvb : 8 * (t.save c).length ≤ U.length * (64 + (Nat.log2 U.length + 1) + 64) + 8 * Spec.hashFunctionBytes c hv + 8 * 56 := by
    have hU2 : f0.filterMap (·.1.head?) = U := by
      have : ∀ (l : List (List K × P × P)) (V : List K), l.map (·.1.reverse) = V.map (fun w => [w]) → l.filterMap (·.1.head?) = V := by
        intro l
        induction l with
        | nil => intro V hV; cases V with
          | nil => rfl
          | cons => cases hV
        | cons r l ih => intro V hV; cases V with
          | nil => cases hV
          | cons w V =>
            obtain ⟨x1, x2⟩ := List.cons.inj hV
            replace x1 : r.1.reverse = [w] := x1
            have hr : r.1 = [w] := by rw [← List.reverse_reverse r.1, x1]; rfl
            rw [List.filterMap_cons, hr, ih V x2]
            rfl
      exact this f0 U hU1
    have e3 := Res.lift_ok_iff e3
    rw [hU2] at e3
    exact probVocab_bits e3 c
  -- the ranks
  obtain ⟨w1, w2, w3⟩ := levelsSt_inv (Fr := RanksFile.data RanksData.cv junk jr) hF _ 1 _ _ _ (by omega) e5
  obtain ⟨rks2, k1, k2, k3⟩ := TrieProb.rankLevels_ok q2 0 data.tail (by rw [List.drop_one])
  rw [Nat.zero_add] at k1
  have e4 := Res.lift_ok_iff e4
  rw [k1] at e4
  cases e4
  have hcons : (f0.map (·.1.reverse)) :: ((data.tail.map (·.map (·.1.reverse))).zip (rks.zip ((List.range data.tail.length).map fun i =>
      pb + if i + 2 = data.length then 0 else bb))).map (·.1) = data.map (·.map (·.1.reverse)) := by
    rw [hrest, hlev]
    cases data with
    | nil => simp at hf0
    | cons x l => cases hf0; rfl
  have hzip : ∀ (k : Nat) (f : List (List K × P × P)), data[k + 1]? = some f → ∃ rs, rks[k]? = some rs ∧
      ((data.tail.map (·.map (·.1.reverse))).zip (rks.zip ((List.range data.tail.length).map fun i =>
        pb + if i + 2 = data.length then 0 else bb)))[k]? = some (f.map (·.1.reverse), rs, pb + if k + 2 = data.length then 0 else bb) := by
    intro k f hf
    have hk := (List.getElem?_eq_some_iff.1 hf).1
    have hrs : rks[k]? = some (rks[k]'(by rw [k2, List.length_tail]; omega)) := List.getElem?_eq_getElem _
    refine ⟨_, hrs, ?_⟩
    rw [List.getElem?_zip_eq_some (z := (_, _))]
    refine ⟨by rw [List.getElem?_map, List.getElem?_tail, hf]; rfl, ?_⟩
    rw [List.getElem?_zip_eq_some (z := (_, _))]
    refine ⟨hrs, ?_⟩
    rw [List.getElem?_map, List.getElem?_range (by rw [List.length_tail]; omega), Option.map_some]
  have hranks : ∀ (k : Nat) (a : StArray G (RanksData.cv.st junk)) (f : List (List K × P × P)), arrs[k + 1]? = some a → data[k + 1]? = some f →
      8 * ((RanksFile.data RanksData.cv junk jr).save a.ranks).length ≤ f.length * Spec.valueBits pb bb data.length (k + 1) + 8 * 40 := by
    intro k a f ha hf
    have hk := (List.getElem?_eq_some_iff.1 hf).1
    obtain ⟨rs, hrs, hz⟩ := hzip k f hf
    have hft : data.tail[k]? = some f := by rw [List.getElem?_tail]; exact hf
    obtain ⟨x1, x2⟩ := k3 k f rs hft hrs
    have hvw : (pb + if k + 2 = data.length then 0 else bb) = Spec.valueBits pb bb data.length (k + 1) := by
      unfold Spec.valueBits
      rw [if_neg (by omega : ¬ k + 1 = 0)]
      by_cases hk2 : k + 2 = data.length
      · rw [if_pos hk2, if_pos hk2, Nat.add_zero]
      · rw [if_neg hk2, if_neg hk2]
    have hpb := hq.probs.1
    have hw58 : 1 ≤ Spec.valueBits pb bb data.length (k + 1) ∧ Spec.valueBits pb bb data.length (k + 1) ≤ 58 := by
      rw [← hvw]; split <;> omega
    rw [← hvw] at hw58
    have hlt : ∀ v ∈ rs, v < 2 ^ (pb + if k + 2 = data.length then 0 else bb) := by
      intro v hv
      obtain ⟨i, hi, rfl⟩ := List.getElem_of_mem hv
      obtain ⟨r, hr, hri⟩ : ∃ r, f[i]? = some r ∧ r ∈ f := ⟨_, List.getElem?_eq_getElem (by omega), List.getElem_mem _⟩
      obtain ⟨rk, y1, y2⟩ := x2 i r hr
      rw [List.getElem?_eq_getElem hi] at y1
      cases y1
      obtain ⟨rk', z1, z2, -⟩ := Quant.rankPair_ok q2 hf hri
      rw [Nat.zero_add] at y2
      rw [y2] at z1
      cases z1
      exact z2
    rw [← hvw]
    generalize hwd : (pb + if k + 2 = data.length then 0 else bb) = wd at *
    have hpow : 2 ^ wd ≤ 2 ^ 58 := Nat.pow_le_pow_right (by omega) hw58.2
    have hpk : packCV wd rs = some rs := Trie.packCV_eq (by omega) hlt
    obtain ⟨pv, hpv⟩ : ∃ pv, (data.map (·.map (·.1.reverse)))[k]? = some pv := ⟨_, List.getElem?_eq_getElem (by rw [List.length_map]; omega)⟩
    rw [← hcons] at hpv
    obtain ⟨ptrs, rs', dd, e0, -, d1, d2, -, d3, -⟩ := w3 k _ _ _ _ hz hpv
    rw [hpk] at d1
    cases d1
    obtain ⟨d, d4, d5⟩ := Res.bind_ok_iff (show Res.bind (RanksData.cv.build (1 + k + 1) rs) (fun d => some (.ok (junk (1 + k + 1), d))) = some (.ok dd) from d2)
    cases d5
    unfold rAt at d3
    rw [show 1 + k = k + 1 by omega, ha] at d3
    have hd : (RanksFile.data RanksData.cv junk jr).save a.ranks = d.save := Option.some.inj d3
    rw [hd]
    have d4 := Res.lift_ok_iff d4
    obtain ⟨cv, g1, g2⟩ := C56_compact_vector_size (vs := rs.map (BitVec.ofNat 64)) (m := 2 ^ wd - 1) (by omega) (by
      intro v hv
      obtain ⟨x, hx, rfl⟩ := List.mem_map.1 hv
      have := hlt x hx
      rw [BitVec.toNat_ofNat]
      have := Nat.mod_le x (2 ^ 64)
      omega)
    rw [d4] at g1
    cases g1
    rw [List.length_map, x1] at g2
    have := Nat.mul_le_mul_left f.length (log2_pow_sub (n := wd) hw58.1)
    omega
  have hptrs : ∀ (k : Nat) (a : StArray G (RanksData.cv.st junk)) (f : List (List K × P × P)), arrs[k]? = some a → data[k]? = some f →
      8 * (a.ptrs.getD jp).save.length ≤
        (if k + 1 = data.length then 0 else (f.length + 1) * (Nat.log2 ((data.getD (k + 1) []).length / (f.length + 1)) + 7)) + 8 * 131 := by
    intro k a f ha hf
    have hk := (List.getElem?_eq_some_iff.1 hf).1
    by_cases hkl : k + 1 = data.length
    · rw [if_pos hkl]
      have hrl2 := congrArg List.length hrest
      rw [List.length_map, List.length_tail (l := List.map _ (TrieProb.asCounts data)), List.length_map, hla] at hrl2
      have := w2 k (.inr (by rw [hrl2]; omega))
      unfold pAt at this
      rw [ha, List.getElem?_map, hf] at this
      have : a.ptrs = none := Option.some.inj this
      rw [this]
      have := unbuilt_bits hj
      simp only [Option.getD_none]
      omega
    · rw [if_neg hkl]
      have hg : data[k + 1]? = some (data[k + 1]'(by omega)) := List.getElem?_eq_getElem _
      generalize data[k + 1]'(by omega) = g at hg
      rw [Space.getD_eq hg]
      obtain ⟨rs, hrs, hz⟩ := hzip k g hg
      have hpv : (data.map (·.map (·.1.reverse)))[k]? = some (f.map (·.1.reverse)) := by rw [List.getElem?_map, hf]; rfl
      rw [← hcons] at hpv
      obtain ⟨ptrs, rs', d, e0, d1, -, -, d4, -, d6⟩ := w3 k _ _ _ _ hz hpv
      unfold pAt at d6
      rw [show 1 + k - 1 = k by omega, ha] at d6
      have hap : a.ptrs = some e0 := Option.some.inj d6
      rw [hap, Option.getD_some]
      obtain ⟨f', hf', hl1, hm1⟩ := has k f hf
      obtain ⟨g', hg', hl2, hm2⟩ := has (k + 1) g hg
      have := child_ptrs_bits hcf hf' hg' (by rw [hm1, hm2]; exact d1) d4
      rwa [hl1, hl2] at this
  -- the orders
  have harr : 8 * (StArray.saveAll F (RanksFile.data RanksData.cv junk jr) jp false arrs).length ≤
      total (fun k => Spec.backoffBits pb bb gb data k + 8 * 327) data.length + 8 * (arrs.map fun a => fn a.grams).sum := by
    have hsa := saveAllSt_bits (F := F) (Fr := RanksFile.data RanksData.cv junk jr) (jp := jp) (fr := false) (fn := fn) (l := arrs)
      (f := fun k => Spec.backoffBits pb bb gb data k + 8 * 327) ?_
    · rwa [hlenA] at hsa
    · intro k a ha
      have hlenA' : arrs.length = data.length := hlenA
      have hk := (List.getElem?_eq_some_iff.1 ha).1
      have hf : data[k]? = some (data[k]'(by omega)) := List.getElem?_eq_getElem _
      generalize data[k]'(by omega) = f at hf
      obtain ⟨f', hf', hfl', -⟩ := has k f hf
      have r2 := hptrs k a f ha hf
      have r3 := hgrams k a f' ha hf'
      rw [hfl'] at r3
      unfold Spec.backoffBits
      rw [Space.getD_eq hf]
      unfold StArray.save
      simp only [List.length_append, Sizes.length_putU]
      generalize (if k + 1 = data.length then 0 else (f.length + 1) * (Nat.log2 ((data.getD (k + 1) []).length / (f.length + 1)) + 7)) = pp at *
      cases k with
      | zero =>
        rw [if_neg (by omega), if_pos rfl]
        simp only [if_pos, List.length_nil, Bool.false_eq_true, if_false]
        omega
      | succ k =>
        have r1 := hranks k a f ha hf
        have r3 := r3 (by omega)
        simp only [if_neg (by omega : ¬ k + 1 = 0), if_pos (by omega : k + 1 + 1 ≠ 1), if_true]
        rw [Nat.mul_add f.length]
        omega
  have hlen8 : ∀ (o : Nat) (u : P), 8 * (saveFile header (StProb.save F (RanksFile.data RanksData.cv junk jr) jp fb c bb
      (⟨o, ro, u, t, arrs, ps, bs, pb⟩ : StProb K P G (RanksData.cv.st junk)))).length =
      56 + (8 * (saveQuantized fb pb ps).length + 8 * (saveQuantized fb bb bs).length) + 8 * (t.save c).length +
        8 * (StArray.saveAll F (RanksFile.data RanksData.cv junk jr) jp false arrs).length := by
    intro o u
    unfold saveFile StProb.save
    have hF : ∀ x : P, (putF fb x).length = 4 := fun x => Sizes.length_putWord 4 _
    simp only [List.length_append, Sizes.length_putU, Sizes.length_putWord, hF]
    omega
  rw [hlen8, Space.total_def]
  simp only [total_add, total_const] at harr ⊢
  show _ ≤ total (Spec.backoffBits pb bb gb data) data.length + _ + _ + _ + _ + _
  replace harr : 8 * (StArray.saveAll F (RanksFile.data RanksData.cv junk jr) jp false arrs).length ≤
      total (Spec.backoffBits pb bb gb data) data.length + data.length * (8 * 327) + 8 * (arrs.map fun a => fn a.grams).sum := harr
  omega

end st
end Space

open Space in
/-- **C56** for backoff tries over `uniform_pef_sequence` grams: just built and after any session of scoring, the file has at most the bits of
`Spec.backoffBits` for each order, with `log2 |V| + 8` bits for the word of an n-gram; for each word of the vocabulary a hash of 64 bits, an id of
`log2 |V| + 1` bits and two floats; the codebooks; the hash function; and at most 512 bytes for each order. -/
theorem C56_pef_backoff_trie_size {K P : Type} [DecidableEq K] [FloatArith P] (fb : FloatBits P) {sort : List P → List P}
    (hsort : ∀ l, (sort l).Perm l ∧ (sort l).Pairwise (· ≤ ·)) (negInf : P) (unkWord : K) (default unk : P) {U : List K}
    {data : List (List (List K × P × P))} {ro pb bb : Nat} (h : Spec.ProbFiles U data ro) (hp : Spec.PefFiles U (TrieProb.asCounts data) ro)
    (hq : Spec.Quantisable data pb bb) (hbits : pb + bb ≤ 58) {hv : Mphf K 64} (hb : hv.BuiltFrom U)
    {junkU junkD junk : Nat → List W} (hu : ∀ k, junkU k ≠ []) (hjd : ∀ k, junkD k ≠ []) (hj : ∀ k, junk k ≠ []) {jr : CompactVector} (hjr : jr.Fits)
    {jp : EF} (hjp : Spec.Unbuilt jp) (c : Emphf K 64) (header : Byte) :
    ∃ t, StProb.build fb sort negInf unkWord default hv (GramsSt.pef junkU junkD) (RanksData.cv.st junk) ro unk pb bb data = some (.ok t) ∧
      ∀ (n : Nat) (ops : List (Nat × Option K)) (d : Nat) (one : P) (scores : List (Option (P × Bool)))
        (t1 : StProb K P (GramsSt.pef junkU junkD) (RanksData.cv.st junk)), t.session fb d one n ops = some (scores, t1) →
        8 * (saveFile header (t1.save (GramsFile.pef junkU junkD) (RanksFile.data RanksData.cv junk jr) jp fb c bb)).length ≤
          ((List.range data.length).map (Spec.backoffBits pb bb (Nat.log2 U.length + 8) data)).sum +
          U.length * (64 + (Nat.log2 U.length + 1) + 64) + Spec.codebookBits pb bb data.length + 8 * Spec.hashFunctionBytes c hv +
          8 * 512 * data.length := by
  obtain ⟨ps, bs, e1, e2, e3⟩ := Quant.codebooks_ok hsort negInf h.arpa.order_min hq
  have hlen : ∀ f ∈ data, f.length < 2 ^ 56 := by
    intro f hf
    have := TrieCount.len_of_size (TrieProb.asCounts_ok h) (f := f.map fun r => (r.1.reverse, 0)) (List.mem_map.2 ⟨f, hf, rfl⟩)
    rwa [List.length_map] at this
  obtain ⟨t, f1, f2, f3⟩ := TrieProb.build_any fb negInf unkWord default unk h hb (G := PefTrie.ideal) (J := RanksData.cv.ideal)
    (ex := PefTrie.ClearAt U (data.map (·.map (·.1.reverse))) ro)
    (fun k prev curr h1 h2 => by
      have := PefTrie.grams_exact (TrieProb.asCounts_ok h) hp k prev curr
      rw [TrieProb.asCounts_map] at this
      exact this h1 h2)
    (fun k f rs hf hl hr => by
      have := hlen f (List.mem_of_getElem? hf)
      refine RanksData.ideal_exact ⟨fun mem hm => ?_, fun d e => CompactVector.buildFrom_fits (Res.lift_ok_iff e) (by rw [List.length_map]; omega)⟩
      rw [RanksData.cv_impl]
      exact TrieImpl.cv_exact (junk := fun _ => mem) hm hr) hbits e1 e2
  have hd : data[0]? = some (data.getD 0 []) := by
    rw [List.getD_eq_getElem?_getD, List.getElem?_eq_getElem (by have := h.arpa.order_min; omega)]; rfl
  have hG := GramsFile.pef_stores hu hjd hu hjd
  have hR := RanksFile.data_stores (R := RanksData.cv) .cv hj hj (junk := jr) (junk' := jr) hjr
  have hvoc : ∀ w ∈ U, (t.voc.lookupPair w).map (fun p => p.1.toNat) = some (U.idxOf w) := by
    intro w hw
    have hU1 : (data.getD 0 []).map (·.1.reverse) = U.map fun w => [w] := by
      have hU0 := h.trie.unigrams
      rw [List.getElem?_map, hd] at hU0
      exact Option.some.inj hU0
    have : [w] ∈ (data.getD 0 []).map (·.1.reverse) := by rw [hU1]; exact List.mem_map.2 ⟨w, hw, rfl⟩
    obtain ⟨r, hr, hrw⟩ := List.mem_map.1 this
    obtain ⟨x, x1, x2⟩ := f2.voc _ hd r hr w (by rw [← List.reverse_reverse r.1, hrw]; rfl)
    rw [x1, Option.map_some, x2]
  obtain ⟨rks, hrl, hB, -⟩ := f2.built
  obtain ⟨t', a1, a2⟩ := st_prob_size (F := GramsFile.pef junkU junkD) (jr := jr) hG.implements hR.implements (GramsFile.pef_keeps junkU junkD)
    (fn := fun _ => 0) (fun _ _ _ _ _ _ _ => rfl) fb hsort negInf unkWord default unk h hq hbits (pef_gramsSized (TrieProb.asCounts_ok h) hp hu hjd)
    f1 hrl hB hvoc c hjp header
  refine ⟨t', a1, fun n ops d one scores t1 hs => ?_⟩
  rw [StProb.session_save hG.keeps hR.keeps hs]
  rw [show (t'.arrs.map fun _ => 0).sum = 0 by simp] at a2
  omega

open PefProbExample PefSaveExample TrieProbExample in
example := C56_pef_backoff_trie_size EndExample.fb8 sortQ_ok (-1000) 9 (-100) (-100)
  (dataP_ok 0 (by omega)) (dataP_pef 0 (by omega)) dataP_quant (by decide) MphExample.built
  (junkU := fun _ => [7]) (junkD := fun _ => [9]) (junk := fun _ => [0#64]) (by simp) (by simp) (by simp)
  (jr := SaveExample.cvJunk) (by simp [SaveExample.cvJunk, CompactVector.Fits]) (jp := PefStatsExample.noPtrs) ⟨rfl, rfl, rfl⟩ SaveExample.codec 9#8

end Tongrams
