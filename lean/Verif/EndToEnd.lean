import Verif.BuiltFits
import Verif.ScoreText

/-! From the text of the input files to the answers of the tools that load the binary file written by the builder: the files are read,
the model is built, saved, loaded by another program and queried. -/

set_option linter.unusedSectionVars false

namespace Tongrams

/-- The builder on the bytes of the files of the orders `1 .. order`, keeping what `save` writes (include/trie_count_lm.hpp:16-98). -/
def TrieCountStore.buildFiles (L : SortLib) (hv : Mphf (List Byte) 64) (G : GramsData) (R : RanksData) (ro : Nat) (files : List (List Byte)) :
    Res (TrieCountStore (List Byte) G R) :=
  Res.bind (Res.mapM readGrams files) fun fs =>
  Res.bind (Res.lift (fs.mapM fun f => f.mapM fun r => (queryWords r.1).map fun ws => (ws, r.2.toNat))) fun data => TrieCountStore.build L hv G R ro data

/-- The builder of a trie backoff model on the bytes of an ARPA file, keeping what `save` writes (include/trie_prob_lm.hpp:19-110). -/
def TrieProbStore.buildArpa {F : Type} [FloatArith F] (strtod : List Byte → F × Nat) (fb : FloatBits F) (sort : List F → List F) (negInf default : F)
    (hv : Mphf (List Byte) 64) (G : GramsData) (R : RanksData) (ro : Nat) (unk : F) (pb bb order : Nat) (file : List Byte) :
    Res (TrieProbStore (List Byte) F G R) :=
  Res.bind (arpaSections strtod file order) fun fs =>
  Res.bind (Res.lift (fs.mapM fun f => f.mapM fun r => (queryWords r.1).map fun ws => (ws, r.2))) fun data =>
  TrieProbStore.build fb sort negInf unkBytes default hv G R ro unk pb bb data

/-! ## Proofs -/

theorem TrieCountStore.buildFiles_eq (L : SortLib) {U : List (List Byte)} {files : List (List (List (List Byte) × Nat))} {ro : Nat}
    (h : Spec.CountFiles U files ro) (hw : ∀ f ∈ files, f ≠ [] ∧ ∀ r ∈ f, ∀ w ∈ r.1, Spec.FileWord w)
    (hv : Mphf (List Byte) 64) (G : GramsData) (R : RanksData) :
    TrieCountStore.buildFiles L hv G R ro (files.map Spec.gramsText) = TrieCountStore.build L hv G R ro files := by
  have hgram := files_grams h hw
  unfold TrieCountStore.buildFiles
  have hread : Res.mapM readGrams (files.map Spec.gramsText) =
      some (.ok (files.map fun f => f.map fun r => (joinSp r.1, BitVec.ofNat 64 r.2))) :=
    Res.mapM_map_ok fun f hf => readGrams_text (hw f hf).1 (by have := TrieCount.len_of_size h hf; omega) (hw f hf).2
  rw [hread, Res.bind_ok]
  have hdata : (files.map fun f => f.map fun r => (joinSp r.1, BitVec.ofNat 64 r.2)).mapM
      (fun f => f.mapM fun r => (queryWords r.1).map fun ws => (ws, r.2.toNat)) = some files := by
    have hin : ∀ f ∈ files, (f.map fun r => (joinSp r.1, BitVec.ofNat 64 r.2)).mapM
        (fun r => (queryWords r.1).map fun ws => (ws, r.2.toNat)) = some f := by
      intro f hf
      have := mapM_map_ok (g := fun r : List (List Byte) × Nat => (joinSp r.1, BitVec.ofNat 64 r.2))
        (f := fun r => (queryWords r.1).map fun ws => (ws, r.2.toNat)) (h := id) (l := f) (by
          intro r hrf
          simp only
          rw [queryWords_ok (hgram f hf r hrf).1 (hgram f hf r hrf).2, Option.map_some, BitVec.toNat_ofNat,
            Nat.mod_eq_of_lt (Nat.lt_of_lt_of_le (h.counts f hf r hrf) (Nat.sub_le _ _))]
          rfl)
      rw [this, List.map_id]
    have := mapM_map_ok (h := id) hin
    rw [this, List.map_id]
  rw [hdata, Res.lift_some, Res.bind_ok]

section
variable {F : Type} [FloatArith F]

theorem TrieProbStore.buildArpa_eq {strtod : List Byte → F × Nat} (lead gap : Nat) {sections : List (List (Spec.ArpaLine F) × Nat)} {tail : List Byte}
    (hg : Spec.GoodArpa strtod sections tail) (fb : FloatBits F) (sort : List F → List F) (negInf default unk : F)
    {data : List (List (List (List Byte) × F × F))} (ro pb bb : Nat) (hd : Spec.ArpaLists sections data)
    (hwords : ∀ f ∈ data, ∀ r ∈ f, ∀ w ∈ r.1, w ≠ [] ∧ sp ∉ w) (ha : Spec.ArpaFiles data) (hv : Mphf (List Byte) 64) (G : GramsData) (R : RanksData) :
    TrieProbStore.buildArpa strtod fb sort negInf default hv G R ro unk pb bb sections.length (Spec.arpaText lead gap sections tail) =
      TrieProbStore.build fb sort negInf unkBytes default hv G R ro unk pb bb data := by
  unfold TrieProbStore.buildArpa
  rw [arpaSections_ok lead gap hg hd, Res.bind_ok]
  have hdata : (Spec.lines data).mapM (fun f => f.mapM fun r => (queryWords r.1).map fun ws => (ws, r.2)) = some data := by
    have hin : ∀ f ∈ data, (f.map fun r => (joinSp r.1, r.2)).mapM
        (fun r => (queryWords r.1).map fun ws => (ws, r.2)) = some f := by
      intro f hf
      have := mapM_map_ok (g := fun r : List (List Byte) × F × F => (joinSp r.1, r.2))
        (f := fun r => (queryWords r.1).map fun ws => (ws, r.2)) (h := id) (l := f) (by
          intro r hrf
          obtain ⟨k, hk⟩ := List.getElem?_of_mem hf
          have hl := ha.len k f hk r hrf
          simp only
          rw [queryWords_ok (by intro e; rw [e] at hl; simp at hl) (hwords f hf r hrf), Option.map_some]
          rfl)
      rw [this, List.map_id]
    have := mapM_map_ok (h := id) hin
    rw [List.map_id] at this
    exact this
  rw [hdata, Res.lift_some, Res.bind_ok]

end

section
variable {K Wd F C : Type} [LogProb F] {S S' : Scorer K Wd F C}

theorem textLine_le (h : S.Le S') (key : ByteRange → K) (m : Mem) : ∀ (n : Nat) (t : TextLines) (st : PState Wd F) (a b : F)
    (v : TextLines × PState Wd F × F × F), S.textLine key m n t st a b = some v → S'.textLine key m n t st a b = some v
  | 0, _, _, _, _, _, e => e
  | n + 1, t, st, a, b, v, e => by
    rw [Scorer.textLine] at e ⊢
    split at e
    · rename_i h1; rw [if_pos h1]; exact e
    · rename_i h1
      rw [if_neg h1]
      obtain ⟨x, e1, e2⟩ := Option.bind_eq_some_iff.1 e
      obtain ⟨r, e3, e4⟩ := Option.bind_eq_some_iff.1 e2
      exact Option.bind_eq_some_iff.2 ⟨x, e1, Option.bind_eq_some_iff.2 ⟨r, score_le h e3, textLine_le h key m n _ _ _ _ _ e4⟩⟩

theorem textLoop_le (h : S.Le S') (key : ByteRange → K) (m : Mem) : ∀ (n : Nat) (t : TextLines) (st : PState Wd F) (a : Totals F)
    (v : Totals F), S.textLoop key m n t st a = some v → S'.textLoop key m n t st a = some v
  | 0, _, _, _, _, e => e
  | n + 1, t, st, a, v, e => by
    rw [Scorer.textLoop] at e ⊢
    split at e
    · rename_i h1; rw [if_pos h1]; exact e
    · rename_i h1
      rw [if_neg h1]
      obtain ⟨x, e1, e2⟩ := Option.bind_eq_some_iff.1 e
      obtain ⟨r, e3, e4⟩ := Option.bind_eq_some_iff.1 e2
      exact Option.bind_eq_some_iff.2 ⟨x, e1, Option.bind_eq_some_iff.2 ⟨r, textLine_le h key m _ _ _ _ _ _ e3, textLoop_le h key m n _ _ _ _ e4⟩⟩

theorem scoreText_le (h : S.Le S') {key : ByteRange → K} {m : Mem} {d : Wd} {one : F} {v : Totals F} (e : S.scoreText key d one m = some v) :
    S'.scoreText key d one m = some v := by
  unfold Scorer.scoreText at e ⊢
  obtain ⟨st, e1, e2⟩ := Option.bind_eq_some_iff.1 e
  rw [← h.order]
  exact Option.bind_eq_some_iff.2 ⟨st, e1, textLoop_le h _ _ _ _ _ _ _ e2⟩

theorem pyLine_le (h : S.Le S') (key : ByteRange → K) (m : Mem) : ∀ (n : Nat) (t : TextLines) (st : PState Wd F) (a : F)
    (v : TextLines × PState Wd F × F), S.pyLine key m n t st a = some v → S'.pyLine key m n t st a = some v
  | 0, _, _, _, _, e => e
  | n + 1, t, st, a, v, e => by
    rw [Scorer.pyLine] at e ⊢
    split at e
    · rename_i h1; rw [if_pos h1]; exact e
    · rename_i h1
      rw [if_neg h1]
      obtain ⟨x, e1, e2⟩ := Option.bind_eq_some_iff.1 e
      obtain ⟨r, e3, e4⟩ := Option.bind_eq_some_iff.1 e2
      exact Option.bind_eq_some_iff.2 ⟨x, e1, Option.bind_eq_some_iff.2 ⟨r, score_le h e3, pyLine_le h key m n _ _ _ _ e4⟩⟩

theorem pyLoop_le (h : S.Le S') (key : ByteRange → K) (m : Mem) : ∀ (n : Nat) (t : TextLines) (st : PState Wd F) (a : F)
    (v : F × Nat), S.pyLoop key m n t st a = some v → S'.pyLoop key m n t st a = some v
  | 0, _, _, _, _, e => e
  | n + 1, t, st, a, v, e => by
    rw [Scorer.pyLoop] at e ⊢
    split at e
    · rename_i h1; rw [if_pos h1]; exact e
    · rename_i h1
      rw [if_neg h1]
      obtain ⟨x, e1, e2⟩ := Option.bind_eq_some_iff.1 e
      obtain ⟨r, e3, e4⟩ := Option.bind_eq_some_iff.1 e2
      exact Option.bind_eq_some_iff.2 ⟨x, e1, Option.bind_eq_some_iff.2 ⟨r, pyLine_le h key m _ _ _ _ _ e3, pyLoop_le h key m n _ _ _ _ e4⟩⟩

theorem pyScoreCorpus_le (h : S.Le S') {key : ByteRange → K} {m : Mem} {d : Wd} {one : F} {v : F × Nat} (e : S.pyScoreCorpus key d one m = some v) :
    S'.pyScoreCorpus key d one m = some v := by
  unfold Scorer.pyScoreCorpus at e ⊢
  obtain ⟨st, e1, e2⟩ := Option.bind_eq_some_iff.1 e
  rw [← h.order]
  exact Option.bind_eq_some_iff.2 ⟨st, e1, pyLoop_le h _ _ _ _ _ _ _ e2⟩

theorem pySentenceLoop_le (h : S.Le S') (key : ByteRange → K) (m : Mem) : ∀ (n : Nat) (t : FwdIter) (st : PState Wd F) (a : F) (w : Nat)
    (v : F × Nat), S.pySentenceLoop key m n t st a w = some v → S'.pySentenceLoop key m n t st a w = some v
  | 0, _, _, _, _, _, e => e
  | n + 1, t, st, a, w, v, e => by
    rw [Scorer.pySentenceLoop] at e ⊢
    split at e
    · rename_i h1
      rw [if_pos h1]
      obtain ⟨x, e1, e2⟩ := Option.bind_eq_some_iff.1 e
      obtain ⟨r, e3, e4⟩ := Option.bind_eq_some_iff.1 e2
      exact Option.bind_eq_some_iff.2 ⟨x, e1, Option.bind_eq_some_iff.2 ⟨r, score_le h e3, pySentenceLoop_le h key m n _ _ _ _ _ e4⟩⟩
    · rename_i h1; rw [if_neg h1]; exact e

theorem pyScoreSentence_le (h : S.Le S') {key : ByteRange → K} {m : Mem} {d : Wd} {one : F} {size : Nat} {v : F × Nat}
    (e : S.pyScoreSentence key d one m size = some v) : S'.pyScoreSentence key d one m size = some v := by
  unfold Scorer.pyScoreSentence at e ⊢
  obtain ⟨st, e1, e2⟩ := Option.bind_eq_some_iff.1 e
  obtain ⟨st', e3, e4⟩ := Option.bind_eq_some_iff.1 e2
  rw [← h.order]
  exact Option.bind_eq_some_iff.2 ⟨st, e1, Option.bind_eq_some_iff.2 ⟨st', e3, pySentenceLoop_le h _ _ _ _ _ _ _ _ e4⟩⟩

end

/-! ## Properties -/

/-- **C50** (count tries).  From the text of the count files to the answers after a save and a load: `build_trie` writes a binary file; the program that
loads it — `lookup_perf_test`, or Python's `CountModel` if the trie was built with IC ranks — reads all its bytes and gets, for the string of every
n-gram listed in the files, its count (Python with a remapped trie: for n-grams of up to `ro + 1` words). -/
theorem C50_count_trie {L : SortLib} (hL : L.Valid) {U : List (List Byte)} {files : List (List (List (List Byte) × Nat))} {ro : Nat}
    (h : Spec.CountFiles U files ro) (hw : ∀ f ∈ files, f ≠ [] ∧ ∀ r ∈ f, ∀ w ∈ r.1, Spec.FileWord w)
    {hv : Mphf (List Byte) 64} (hb : hv.BuiltFrom U) {hr : Nat → Mphf Nat 64} (hh : Spec.RangeHashes hr files) (cr : CountRanks)
    (hcr : cr = .psef → ∀ f ∈ files, f.length < 2 ^ 32)
    {c : Emphf (List Byte) 64} (hc : Spec.EmphfReads c hv) {c' : Emphf Nat 64} (hc' : ∀ k, Spec.EmphfReads c' (hr k)) {junk : UTable Nat 64}
    (hju : junk.Fits c') {j : Junk (GramsData.fastEF hr c' junk) cr.data} (hj1 : FastEF.Fits c' j.grams) (hj2 : cr.data.fits j.ranks)
    (hj3 : j.ptrs.Fits) (header : Byte) :
    ∃ s s' : TrieCountStore (List Byte) (GramsData.fastEF hr c' junk) cr.data,
      TrieCountStore.buildFiles L hv _ _ ro (files.map Spec.gramsText) = some (.ok s) ∧
      loadFile (TrieCountStore.load (GramsData.fastEF hr c' junk) cr.data c) (saveFile header (s.save c j)) =
        some (s', (saveFile header (s.save c j)).length) ∧
      ∀ (mem : List W), ∀ f ∈ files, ∀ gram count, (gram, count) ∈ f →
        (s'.toModel mem).lookupString (joinSp gram) = some count ∧
        (cr = .ic → ro = 0 ∨ gram.length ≤ ro + 1 → (s'.toModel mem).pyLookup (joinSp gram) = some count) := by
  obtain ⟨s, s', e1, e2, -, e3⟩ := C36_count_trie_through_a_file hL h hb hh cr hcr hc hc' hju hj1 hj2 hj3 header
  have hro : s'.ro = ro := by
    obtain ⟨s2, g1, g2, -⟩ := TrieCountStore.load_le (Codec.std hr c' junk cr.data_std) (TrieCountStore.build_fits hL h hb hh cr hc hc' hju hj1 hj2 hj3 e1)
    have g3 := C36_file g1 header
    rw [e2] at g3
    have g4 := congrArg Prod.fst (Option.some.inj g3)
    simp only at g4
    have g5 := TrieCountStore.build_impl (G := GramsData.fastEF hr c' junk) (R := cr.data) L hv [] ro files
    rw [e1] at g5
    have := TrieCount.build_ro g5
    rw [g4, g2]; exact this
  have hgram := files_grams h hw
  refine ⟨s, s', by rw [TrieCountStore.buildFiles_eq L h hw, e1], e2, ?_⟩
  intro mem f hf gram count hm
  have hl : (s'.toModel mem).lookupString (joinSp gram) = some count := by
    unfold TrieCount.lookupString
    rw [queryWords_ok (hgram f hf _ hm).1 (hgram f hf _ hm).2, Option.bind_some, e3 mem f hf gram count hm]
  refine ⟨hl, fun _ hsh => ?_⟩
  unfold TrieCount.pyLookup TrieCount.lookupString
  have := h.counts f hf (gram, count) hm
  rw [queryWords_ok (hgram f hf _ hm).1 (hgram f hf _ hm).2, Option.bind_some,
    TrieCount.python_short (t := s'.toModel mem) (by show s'.ro ≤ 2; rw [hro]; exact h.remapping) (by show s'.ro = 0 ∨ _ ≤ s'.ro + 1; rw [hro]; exact hsh),
    e3 mem f hf gram count hm, Option.map_some, if_neg (by unfold NF; simp only at this; omega)]

/-- **C50** (hash count models). -/
theorem C50_hash_count {B : Nat} {L : SortLib} (hL : L.Valid) {mem extra : Nat} {files : List (List (List (List Byte) × Nat))}
    (h : Spec.CountLists mem files) (hw : ∀ f ∈ files, ∀ r ∈ f, ∀ w ∈ r.1, Spec.FileWord w)
    (hB : B = 64 ∨ (B = 32 ∧ ∀ f ∈ files, f.length < 2 ^ 26)) (hn : ∀ f ∈ files, f.length < 2 ^ 57) {hs : Nat → Mphf (List Byte) B}
    (hb : ∀ (k : Nat) (f : List (List (List Byte) × Nat)), files[k]? = some f → (hs k).BuiltFrom (f.map fun r => joinSp r.1))
    {c : Emphf (List Byte) B} (hc : ∀ k, Spec.EmphfReads c (hs k)) (header : Byte) :
    ∃ m m', MphCount.buildFiles L mem extra hs (files.map Spec.gramsText) = some (.ok m) ∧
      loadFile (MphCount.load c) (saveFile header (m.save c)) = some (m', (saveFile header (m.save c)).length) ∧
      ∀ f ∈ files, ∀ gram count, (gram, count) ∈ f → m'.lookup (joinSp gram) = some count := by
  obtain ⟨m, e1, e2, e3⟩ := C36_hash_count_through_a_file hL (extra := extra) h hB hn hb hc header
  obtain ⟨m1, f1, -⟩ := C44_mph_count_files_to_answers hL (extra := extra) h hw hB hn hb
  refine ⟨m, m, ?_, e2, e3⟩
  unfold MphCount.buildFiles at f1 ⊢
  rw [Res.mapM_map_ok (h := fun f => f.map fun r => (joinSp r.1, BitVec.ofNat 64 r.2)) fun f hf =>
    readGrams_text (h.nonempty f hf) (by have := hn f hf; omega) (hw f hf), Res.bind_ok, ← e1]
  congr 1
  unfold Spec.lines
  rw [List.map_map]
  apply List.map_congr_left
  intro f hf
  rw [Function.comp, List.map_map]
  apply List.map_congr_left
  intro r hr
  rw [Function.comp, BitVec.toNat_ofNat, Nat.mod_eq_of_lt (Nat.lt_of_lt_of_le (h.counts f hf r hr) (Nat.sub_le _ _))]

section
variable {F : Type} [FloatArith F]

/-- **C50** (backoff tries).  From the text of an ARPA file and of a corpus: `build_trie` writes a binary file; `score`, which loads it, reports the
totals of the corpus under the (quantised) ARPA model of the file; Python's `ProbModel`, if the trie was built without remapping, returns the same total, and for a sentence the sum of its word
scores. -/
theorem C50_backoff_trie {strtod : List Byte → F × Nat} (lead gap : Nat) {sections : List (List (Spec.ArpaLine F) × Nat)} {tail : List Byte}
    (hg : Spec.GoodArpa strtod sections tail) (fb : FloatBits F) {sort : List F → List F} (hsort : ∀ l, (sort l).Perm l ∧ (sort l).Pairwise (· ≤ ·))
    (negInf default unk : F) {U : List (List Byte)} {data : List (List (List (List Byte) × F × F))} {ro pb bb : Nat}
    (hd : Spec.ArpaLists sections data) (hwords : ∀ f ∈ data, ∀ r ∈ f, ∀ w ∈ r.1, w ≠ [] ∧ sp ∉ w)
    (h : Spec.ProbFiles U data ro) (hq : Spec.Quantisable data pb bb) (hbits : pb + bb ≤ 58)
    (hfb : ∀ f0, data[0]? = some f0 → ∀ r ∈ f0, fb.dec (fb.enc r.2.1) = r.2.1 ∧ fb.dec (fb.enc r.2.2) = r.2.2)
    (hcb : ∀ ps bs, Quant.codebooks sort negInf pb bb data = some (.ok (ps, bs)) → ∀ l ∈ ps ++ bs, ∀ x ∈ l, Spec.IsFloat fb x)
    (hunk : Spec.IsFloat fb (Spec.unkProb Spec.unkText default (data.getD 0 []) unk))
    {hv : Mphf (List Byte) 64} (hb : hv.BuiltFrom U) {hr : Nat → Mphf Nat 64} (hh : Spec.RangeHashes hr (TrieProb.asCounts data))
    {c : Emphf (List Byte) 64} (hc : Spec.EmphfReads c hv) {c' : Emphf Nat 64} (hc' : ∀ k, Spec.EmphfReads c' (hr k)) {junk : UTable Nat 64}
    (hju : junk.Fits c') {j : Junk (GramsData.fastEF hr c' junk) RanksData.cv} (hj1 : FastEF.Fits c' j.grams) (hj2 : CompactVector.Fits j.ranks)
    (hj3 : j.ptrs.Fits) (header : Byte) :
    ∃ s s' : TrieProbStore (List Byte) F (GramsData.fastEF hr c' junk) RanksData.cv,
      TrieProbStore.buildArpa strtod fb sort negInf default hv _ _ ro unk pb bb sections.length (Spec.arpaText lead gap sections tail) = some (.ok s) ∧
      loadFile (TrieProbStore.load (GramsData.fastEF hr c' junk) RanksData.cv fb c) (saveFile header (s.save fb c j bb)) =
        some (s', (saveFile header (s.save fb c j bb)).length) ∧
      ∀ mem : List W, mem ≠ [] → ∃ qp qb, Spec.Quantised data pb bb qp qb ∧
      ∀ A, A = Spec.Arpa.ofData data (Spec.unkProb Spec.unkText default (data.getD 0 []) unk) qp qb →
      (∀ (text : List (List (List Byte))) (d : Nat) (one : F), (∀ l ∈ text, l ≠ [] ∧ ∀ w ∈ l, Spec.IsWord w ∧ Spec.Recognised hv U w) →
        ((s'.toModel mem).scorer fb).scoreText (slice (textOf text)) d one (textOf text) = some (A.corpus text) ∧
        (ro = 0 → ((s'.toModel mem).python.scorer fb).pyScoreCorpus (slice (textOf text)) d one (textOf text) =
          some ((text.map fun l => ((A.wordScores l).map (·.1)).foldl (· + ·) 0).foldl (· + ·) 0, (text.map List.length).sum))) ∧
      (ro = 0 → ∀ (sentence : List (List Byte)) (after : List Byte) (d : Nat) (one : F), (∀ w ∈ sentence, (Spec.IsWord w ∧ w ≠ []) ∧ Spec.Recognised hv U w) →
        ((s'.toModel mem).python.scorer fb).pyScoreSentence (slice (joinSp sentence ++ after)) d one (joinSp sentence ++ after) (joinSp sentence).length =
          some (((A.wordScores sentence).map (·.1)).foldl (· + ·) 0, sentence.length)) := by
  obtain ⟨s, s', e1, e2, e3, -⟩ := C36_backoff_trie_through_a_file fb hsort negInf unkBytes default unk h hq hbits hfb hcb hunk hb hh hc hc' hju hj1 hj2 hj3 header
  refine ⟨s, s', by rw [TrieProbStore.buildArpa_eq lead gap hg fb sort negInf default unk ro pb bb hd hwords h.arpa, e1], e2, ?_⟩
  have hro : s'.ro = ro := by
    have hpow := hq.probs.2
    have hunk' := hunk
    have hd0 : data[0]? = some (data.getD 0 []) := by
      rw [List.getD_eq_getElem?_getD, List.getElem?_eq_getElem (by have := h.arpa.order_min; omega)]; rfl
    rw [← unkBytes_eq, ← findUnk_spec unkBytes default _ unk (h.arpa.distinct _ (List.mem_of_getElem? hd0))] at hunk'
    obtain ⟨s2, g1, g2, -⟩ := TrieProbStore.load_ro_le (Codec.std hr c' junk .cv) (bb := bb) (by omega)
      (TrieProbStore.build_fits fb h (by omega) hb hh hc hc' hju hj1 hj2 hj3 hcb hunk' e1)
    have g3 := C36_file g1 header
    rw [e2] at g3
    have g4 := congrArg Prod.fst (Option.some.inj g3)
    simp only at g4
    have g5 := TrieProbStore.build_impl (G := GramsData.fastEF hr c' junk) (R := RanksData.cv) fb sort negInf unkBytes default hv [] ro unk pb bb data
    rw [e1] at g5
    have := TrieProb.build_ro g5
    rw [g4, g2]; exact this
  intro mem hm
  have key : TrieProb.build fb sort negInf unkBytes default hv (GramsImpl.fastEF hr) (RanksImpl.cv fun _ => mem) ro unk pb bb data =
      some (.ok (s.toModel mem)) := by
    have := TrieProbStore.build_impl (G := GramsData.fastEF hr c' junk) (R := RanksData.cv) fb sort negInf unkBytes default hv mem ro unk pb bb data
    rw [e1, GramsData.fastEF_impl, RanksData.cv_impl] at this
    exact this
  obtain ⟨ps, bs, g1, g2, g3⟩ := Quant.codebooks_ok hsort negInf h.arpa.order_min hq
  obtain ⟨t, f1, f2, f3⟩ := TrieProb.build_ok fb negInf unkBytes default unk h hb hh (junk := fun _ => mem) (fun _ => hm) hbits g1 g2
  rw [key, Option.some_inj, Except.ok.injEq] at f1
  subst f1
  have hd0 : data[0]? = some (data.getD 0 []) := by
    rw [List.getD_eq_getElem?_getD, List.getElem?_eq_getElem (by have := h.arpa.order_min; omega)]; rfl
  refine ⟨_, _, g3, ?_⟩
  rintro A rfl
  rw [← unkBytes_eq, ← findUnk_spec unkBytes default _ unk (h.arpa.distinct _ (List.mem_of_getElem? hd0)), ← f3 _ hd0]
  have I := TrieProb.implements_all hfb h f2 g2
  rw [← Spec.Arpa.comap_id (Spec.Arpa.ofData data _ _ _)] at I
  have hs : ∀ (A : Spec.Arpa (List Byte) F) (l : List (List Byte)), A.sentenceScore l = ((A.wordScores l).map (·.1)).foldl (· + ·) 0 := by
    intro A l; unfold Spec.Arpa.sentenceScore; rw [List.foldl_map]
  constructor
  · intro text d one hV
    have hat : At (textOf text) 0 (textOf text) := by unfold At; simp
    have hspec := (Scorer.text_spec (key := slice (textOf text)) (f := id) (fun _ => rfl) I (ArpaData.wellFormed data _ _ _ h.arpa) d one).1 text rfl
      (fun l hl => ⟨(hV l hl).1, fun w hw => ((hV l hl).2 w hw).1⟩) (by
        intro l hl g hg w hw
        obtain ⟨i, hi⟩ := List.getElem?_of_mem hl
        obtain ⟨l', o, g1, rfl, g3⟩ := at_lines hat hi
        have := occurs_mem hg w hw
        rw [slices_wordRanges g3] at this
        exact ((hV l' (List.mem_of_getElem? g1)).2 w this).2)
    simp only [← hs]
    refine ⟨scoreText_le (e3 mem) hspec.1, fun h0 => ?_⟩
    rw [TrieProb.python_eq (t := s'.toModel mem) (by show s'.ro = 0; rw [hro, h0])]
    exact pyScoreCorpus_le (e3 mem) hspec.2
  · intro h0 sentence after d one hV
    rw [TrieProb.python_eq (t := s'.toModel mem) (by show s'.ro = 0; rw [hro, h0])]
    have hat : At (joinSp sentence ++ after) 0 (joinSp sentence) := by unfold At; simp
    rw [← hs]
    refine pyScoreSentence_le (e3 mem) ((Scorer.text_spec (key := slice (joinSp sentence ++ after)) (f := id) (fun _ => rfl) I
      (ArpaData.wellFormed data _ _ _ h.arpa) d one).2 sentence hat (fun w hw => (hV w hw).1) ?_)
    intro g hg w hw
    have := occurs_mem hg w hw
    rw [slices_wordRanges hat] at this
    exact (hV w this).2

end

section
variable {F : Type} [FloatArith F]

/-- **C50** (hash backoff models). -/
theorem C50_hash_backoff {B : Nat} {strtod : List Byte → F × Nat} (lead gap : Nat) {sections : List (List (Spec.ArpaLine F) × Nat)} {tail : List Byte}
    (hg : Spec.GoodArpa strtod sections tail) (fb : FloatBits F) {sort : List F → List F} (hsort : ∀ l, (sort l).Perm l ∧ (sort l).Pairwise (· ≤ ·))
    (negInf default unk : F) {mem pb bb : Nat} (extra : Nat) {hs : Nat → Mphf (List Byte) B} {data : List (List (List (List Byte) × F × F))}
    (hd : Spec.ArpaLists sections data) (h : Spec.MphProbInput fb mem pb bb hs data)
    (hn : ∀ f ∈ data, f.length < 2 ^ 57) (hcb : ∀ ps bs, Quant.codebooks sort negInf pb bb data = some (.ok (ps, bs)) → ∀ l ∈ ps ++ bs, ∀ x ∈ l, Spec.IsFloat fb x)
    (hunk : Spec.IsFloat fb (Spec.unkProb Spec.unkText default (data.getD 0 []) unk))
    {c : Emphf (List Byte) B} (hc : ∀ k, Spec.EmphfReads c (hs k)) (header : Byte) :
    ∃ m m' qp qb, MphProb.buildArpa strtod fb sort negInf default unk mem extra hs pb bb sections.length (Spec.arpaText lead gap sections tail) = some (.ok m) ∧
      loadFile (MphProb.load fb c) (saveFile header (m.save fb c bb)) = some (m', (saveFile header (m.save fb c bb)).length) ∧
      Spec.Quantised data pb bb qp qb ∧
      ∀ (text : List (List (List Byte))) (d : Nat) (one : F), (∀ l ∈ text, l ≠ [] ∧ ∀ w ∈ l, Spec.IsWord w) →
        (∀ l ∈ text, Spec.GramsRecognised hs data l) →
        (m'.scorer fb (textOf text)).scoreText id d one (textOf text) =
          some ((Spec.Arpa.ofData data (Spec.unkProb Spec.unkText default (data.getD 0 []) unk) qp qb).corpus text) := by
  obtain ⟨m, qp, qb, e1, e2, e3⟩ := C46_score_tool_mph lead gap hg fb hsort negInf default unk extra hd h
  obtain ⟨m1, -, -, f1, f2, -⟩ := C36_hash_backoff_through_a_file fb hsort negInf default unk extra h hn hcb hunk hc header
  have he := e1
  unfold MphProb.buildArpa at he
  rw [arpaSections_ok lead gap hg hd, Res.bind_ok, f1, Option.some_inj, Except.ok.injEq] at he
  subst he
  exact ⟨m1, m1, qp, qb, e1, f2, e2, e3⟩

end

/-! ## Concrete cases -/

namespace EndExample
open FilesExample TrieProbExample SaveExample

/-- A library with finitely many hashers, told apart by one byte. -/
noncomputable def codecOf {K : Type} {B : Nat} (fs : List (K → BitVec B × BitVec B × BitVec B)) : Emphf K B where
  saveHasher f := putU 1 (@List.idxOf _ ⟨fun a b => @decide (a = b) (Classical.propDecidable _)⟩ f fs)
  loadHasher := Rd.bind (getU 1) fun b => Rd.ret (fs.getD b fun _ => (0, 0, 0))
  savePairs := putVec (putU 1)
  loadPairs := getVec (getU 1)

theorem codecOf_reads {K : Type} {B : Nat} {fs : List (K → BitVec B × BitVec B × BitVec B)} (hl : fs.length < 256) {h : Mphf K B}
    (hf : h.hasher ∈ fs) (h1 : h.bv.length < 2 ^ 64) (h2 : ∀ v ∈ h.bv, v < 256) : Spec.EmphfReads (codecOf fs) h := by
  refine ⟨?_, getVec_putVec h1 fun v hv => getU1 (h2 v hv)⟩
  let _ : DecidableEq (K → BitVec B × BitVec B × BitVec B) := Classical.decEq _
  have hi : fs.idxOf h.hasher < fs.length := List.idxOf_lt_length_iff.2 hf
  have e : @List.idxOf _ ⟨fun a b => @decide (a = b) (Classical.propDecidable _)⟩ h.hasher fs = fs.idxOf h.hasher := by
    congr 1
  show Spec.Reads (Rd.bind (getU 1) fun b => Rd.ret (fs.getD b fun _ => (0, 0, 0))) (putU 1 _) _
  rw [e]
  refine Spec.Reads.last (getU1 (v := fs.idxOf h.hasher) (by omega)) ?_
  rw [List.getD_eq_getElem?_getD, List.getElem?_eq_getElem hi, Option.getD_some, List.getElem_idxOf]

/-- The words of the count files, and of the ARPA file. -/
def U : List (List Byte) := [MphCountExample.w 0, MphCountExample.w 1, MphCountExample.w 2]

theorem range_read : Spec.EmphfReads codec FastEF.exMphf := ⟨hashers.1, pairs (by decide) (by decide)⟩

theorem ranges_read (k : Nat) : Spec.EmphfReads codec ((fun _ : Nat => FastEF.exMphf) k) := range_read

theorem voc_read : Spec.EmphfReads (codecOf [(TextExample.mphf3 U).hasher]) (TextExample.mphf3 U) :=
  codecOf_reads (by decide) (by simp) (by decide) (by decide)

theorem junk_ptrs (R : RanksData) (r : R.E) (h : Nat → Mphf Nat 64) : (SaveExample.junk R r h).ptrs.Fits := by
  simp [SaveExample.junk, EF.Fits, BitVector.Fits, DArray.Fits, DArray.empty]

/-- The hypotheses of C36 (through a file) and C50 are met by the count files of C44's example: `a c` occurs twice. -/
example : ∃ s s' : TrieCountStore (List Byte) (GramsData.fastEF (fun _ => FastEF.exMphf) codec junkTable) CountRanks.ic.data,
    ∃ file : List Byte, TrieCountStore.buildFiles exLib (TextExample.mphf3 U) _ _ 0 (MphCountExample.files.map Spec.gramsText) = some (.ok s) ∧
    loadFile (TrieCountStore.load (GramsData.fastEF (fun _ => FastEF.exMphf) codec junkTable) CountRanks.ic.data (codecOf [(TextExample.mphf3 U).hasher])) file =
      some (s', file.length) ∧ ∀ mem, (s'.toModel mem).lookupString (str "a c") = some 2 := by
  obtain ⟨s, s', e1, e2, e3⟩ := C50_count_trie exLib_valid files_trie files_words
    (TextExample.built3 (keys := U) rfl (by decide)) files_hashes .ic (by simp) voc_read ranges_read junk_fits
    (j := SaveExample.junk CountRanks.ic.data icJunk _) (fef_fits [1, 2] (by decide) (by decide))
    (by show ICSeq.Fits _; simp [SaveExample.junk, icJunk, ICSeq.Fits, BitVector.Fits, DArray.Fits, DArray.empty]) (junk_ptrs _ _ _) 7#8
  exact ⟨s, s', _, e1, e2, fun mem => (e3 mem _ (List.mem_of_getElem? (i := 1) rfl) [MphCountExample.w 0, MphCountExample.w 2] 2 (by simp)).1⟩

theorem hs_read (k : Nat) : Spec.EmphfReads (codecOf [(MphCountExample.hs 0).hasher, (MphCountExample.hs 1).hasher, (MphCountExample.hs 2).hasher])
    (MphCountExample.hs k) := by
  have hk : MphCountExample.hs k = MphCountExample.hs 0 ∨ MphCountExample.hs k = MphCountExample.hs 1 ∨ MphCountExample.hs k = MphCountExample.hs 2 := by
    rcases k with _ | _ | k
    · exact .inl rfl
    · exact .inr (.inl rfl)
    · refine .inr (.inr ?_)
      unfold MphCountExample.hs MphCountExample.files
      simp
  rcases hk with e | e | e <;> rw [e] <;> exact codecOf_reads (by decide) (by simp) (by decide) (by decide)

example := C50_hash_count exLib_valid (extra := 0) MphCountExample.files_ok (fun f hf => (files_words f hf).2) (.inl rfl) (by decide)
  MphCountExample.hs_built hs_read 7#8

/-- Fixed-point numbers with three fractional bits. -/
def fb8 : FloatBits ℚ := ⟨fun x => BitVec.ofInt 32 (x * 8).num, fun b => (b.toInt : ℚ) / 8⟩

theorem fb8_ok {x : ℚ} (h : x = 0 ∨ x = -1/8 ∨ x = -1/4 ∨ x = -1/2 ∨ x = -100 ∨ x = -1 ∨ x = -2 ∨ x = -3) : Spec.IsFloat fb8 x := by
  show _ = _
  rcases h with rfl | rfl | rfl | rfl | rfl | rfl | rfl | rfl <;> decide +kernel

theorem input8 : Spec.MphProbInput fb8 200 2 2 MphProbExample.hs MphProbExample.data :=
  { MphProbExample.data_input with
    floats := by
      intro f0 hf r hr
      simp [MphProbExample.data] at hf; subst hf
      simp at hr
      rcases hr with rfl | rfl | rfl <;> exact ⟨by decide +kernel, by decide +kernel⟩
    notNaN := by
      intro f0 hf r hr
      simp [MphProbExample.data] at hf; subst hf
      simp at hr
      rcases hr with rfl | rfl | rfl <;> decide +kernel }

theorem codes8 : ∀ ps bs, Quant.codebooks sortQ (-1000) 2 2 MphProbExample.data = some (.ok (ps, bs)) → ∀ l ∈ ps ++ bs, ∀ x ∈ l, Spec.IsFloat fb8 x := by
  intro ps bs h l hl x hx
  obtain ⟨ps', h1, h2⟩ := Res.bind_ok_iff h
  obtain ⟨bs', h3, h4⟩ := Res.bind_ok_iff h2
  obtain ⟨rfl, rfl⟩ : ps' = ps ∧ bs' = bs := by simpa using h4
  have hq := MphProbExample.data_input.quant
  rcases List.mem_append.1 hl with hl | hl
  · obtain ⟨i, hi⟩ := List.getElem?_of_mem hl
    obtain ⟨f, hf, e⟩ := Res.mapM_get? h1 i l hi
    have hm := List.mem_of_getElem? hf
    obtain ⟨c, e1, e2, -, e4, -⟩ := C21_probability_quantiser sortQ_ok (-1000) (vals := f.map (·.2.1)) hq.probs
        (by rw [List.length_map]; exact hq.probs_size f hm) (by rw [List.length_map]; exact hq.probs_bins f hm)
    rw [e] at e1; cases e1
    obtain ⟨⟨y, hy, g1⟩, z, hz, g2⟩ := e4 x hx
    have hall : ∃ v, (v = -1/2 ∨ v = (-1/4 : ℚ)) ∧ ∀ u ∈ f.map (·.2.1), u = v := by
      simp [MphProbExample.data] at hm
      rcases hm with rfl | rfl
      · exact ⟨-1/2, .inl rfl, by simp⟩
      · exact ⟨-1/4, .inr rfl, by simp⟩
    obtain ⟨v, hv, hall⟩ := hall
    rw [hall y hy] at g1; rw [hall z hz] at g2
    have : x = v := le_antisymm g2 g1
    apply fb8_ok
    rcases hv with rfl | rfl <;> simp [this]
  · obtain ⟨i, hi⟩ := List.getElem?_of_mem hl
    obtain ⟨f, hf, e⟩ := Res.mapM_get? h3 i l hi
    have hm := List.mem_of_getElem? hf
    have hf' : f = [([MphProbExample.w 1, MphProbExample.w 0], -1/2, -1/8), ([MphProbExample.w 2, MphProbExample.w 0], -1/2, -1/8),
      ([MphProbExample.w 0, MphProbExample.w 1], -1/2, -1/8), ([MphProbExample.w 1, MphProbExample.w 2], -1/2, -1/8)] := by
      simpa [MphProbExample.data] using hm
    obtain ⟨c, e1, e2, -, e4, -⟩ := C21_backoff_quantiser sortQ_ok (-1000) (vals := (f.map (·.2.2)).filter (fun b => decide (b ≠ 0))) hq.backoffs
        (by subst hf'; simp) trivial
    rw [e] at e1; cases e1
    rcases List.mem_cons.1 hx with rfl | hx
    · exact fb8_ok (.inl rfl)
    · obtain ⟨⟨y, hy, g1⟩, z, hz, g2⟩ := e4 x hx
      have hall : ∀ u ∈ (f.map (·.2.2)).filter (fun b => decide (b ≠ 0)), u = -1/8 := by subst hf'; simp
      rw [hall y hy] at g1; rw [hall z hz] at g2
      exact fb8_ok (.inr (.inl (le_antisymm g2 g1)))

theorem unk8 : Spec.IsFloat fb8 (Spec.unkProb Spec.unkText (-100) (MphProbExample.data.getD 0 []) (-100)) := by
  apply fb8_ok
  simp [Spec.unkProb, MphProbExample.data, ← unkBytes_eq, unkBytes, MphProbExample.w]

/-- The hypotheses of C36 (through a file) and C50 are met by the ARPA file of C44's example and a corpus of two sentences. -/
example : ∃ s s' : TrieProbStore (List Byte) ℚ (GramsData.fastEF (fun _ => FastEF.exMphf) codec junkTable) RanksData.cv,
    ∃ file : List Byte, TrieProbStore.buildArpa strtod fb8 sortQ (-1000) (-100) (TextExample.mphf3 U) _ _ 1 (-100) 2 2 3 (Spec.arpaText 0 0 sections [nl]) =
      some (.ok s) ∧
    loadFile (TrieProbStore.load (GramsData.fastEF (fun _ => FastEF.exMphf) codec junkTable) RanksData.cv fb8 (codecOf [(TextExample.mphf3 U).hasher])) file =
      some (s', file.length) ∧
    ∃ tot : Totals ℚ, ((s'.toModel [0#64]).scorer fb8).scoreText (slice (textOf corpus)) 0 0 (textOf corpus) = some tot ∧ tot.sentences = 2 ∧ tot.tokens = 5 := by
  obtain ⟨s, s', e1, e2, e3⟩ := C50_backoff_trie 0 0 good fb8 sortQ_ok (-1000) (-100) (-100) lists data_words
    MphProbExample.data_trie MphProbExample.data_input.quant (by decide) input8.floats codes8 unk8
    (TextExample.built3 (keys := U) rfl (by decide)) MphProbExample.data_hashes voc_read ranges_read junk_fits
    (j := SaveExample.junk RanksData.cv cvJunk _) (fef_fits [1, 2] (by decide) (by decide))
    ⟨by decide, by decide, by decide⟩ (junk_ptrs _ _ _) 7#8
  obtain ⟨qp, qb, -, e4⟩ := e3 [0#64] (by simp)
  exact ⟨s, s', _, e1, e2, _, ((e4 _ rfl).1 corpus 0 0 corpus_words).1, rfl, rfl⟩

theorem hs_read' (k : Nat) : Spec.EmphfReads (codecOf [(MphProbExample.hs 0).hasher, (MphProbExample.hs 1).hasher, (MphProbExample.hs 2).hasher,
    (MphProbExample.hs 3).hasher]) (MphProbExample.hs k) := by
  have hk : MphProbExample.hs k = MphProbExample.hs 0 ∨ MphProbExample.hs k = MphProbExample.hs 1 ∨ MphProbExample.hs k = MphProbExample.hs 2 ∨
      MphProbExample.hs k = MphProbExample.hs 3 := by
    rcases k with _ | _ | _ | k
    · exact .inl rfl
    · exact .inr (.inl rfl)
    · exact .inr (.inr (.inl rfl))
    · refine .inr (.inr (.inr ?_))
      unfold MphProbExample.hs MphProbExample.data
      simp
  rcases hk with e | e | e | e <;> rw [e] <;> exact codecOf_reads (by simp) (by simp) (by decide) (by decide)

example := C50_hash_backoff 0 0 good fb8 sortQ_ok (-1000) (-100) (-100) 0 lists input8
  (by intro f hf; simp [MphProbExample.data] at hf; rcases hf with rfl | rfl | rfl <;> simp) codes8 unk8 hs_read' 7#8

end EndExample

end Tongrams
