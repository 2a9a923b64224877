import Verif.Tools
import Verif.SortTools
import Verif.SortArpa

/-!
C69: from unsorted data to answers with the programs of the README only (README.md, "Input data format"): `sort_grams` or `sort_arpa`, then `build_trie`, then
`test_count_model`, `lookup_perf_test` and `score`.  No new code is modelled here: the theorems put together those on `sort_grams` (SortTools.lean) and
`sort_arpa` (SortArpa.lean) with those on the other programs (Tools.lean).  The compression of the files of `sort_grams` with `gzip`, and putting the
sections of `sort_arpa` together into one file, is done by the user.
-/

set_option linter.unusedSectionVars false

namespace Tongrams

namespace Workflow

theorem longBegins_psums (b : Nat) (cs : List Nat) (h : ∀ c ∈ cs, c < 128) : FastEF.longBegins (b :: Spec.psums b cs) = [] := by
  induction cs generalizing b with
  | nil => rfl
  | cons c cs ih =>
    have h1 := h c List.mem_cons_self
    unfold Spec.psums FastEF.longBegins
    rw [if_neg (by omega)]
    exact ih (b + c) fun x hx => h x (List.mem_cons_of_mem _ hx)

/-- Orders of fewer than 128 n-grams have no long ranges, so `fast_ef_sequence` needs no hash function. -/
theorem rangeHashes_short {K : Type} [DecidableEq K] (h : Nat → Mphf Nat 64) {files : List (List (List K × Nat))} (hs : ∀ f ∈ files, f.length < 128) :
    Spec.RangeHashes h files := by
  intro k f g _ hg hn
  refine absurd (longBegins_psums 0 _ fun c hc => ?_) hn
  obtain ⟨p, -, rfl⟩ := List.mem_map.1 hc
  have h1 := hs g (List.mem_of_getElem? hg)
  have h2 := List.countP_le_length (p := fun q : List K => decide (q.dropLast = p)) (l := g.map (·.1))
  rw [List.length_map] at h2
  omega

/-- Two lists of the same records, both sorted by keys without ties, are equal. -/
theorem sorted_unique {R : Type} (key : R → List Nat) {a b : List R} (hp : a.Perm b) (ha : a.Pairwise fun p q => key p < key q)
    (hb : b.Pairwise fun p q => key p < key q) : a = b := by
  refine hp.eq_of_pairwise (fun x y _ _ h1 h2 => ?_) ha hb
  exact absurd (List.lt_trans h1 h2) (List.lt_irrefl _)

end Workflow

section
variable {F : Type} [FloatArith F]
open Tools

/-- **C69** (unsorted counts): take n-gram files in any order, the 1-grams being the vocabulary.  `sort_grams` sorts each of the others; `build_trie` on the
folder of the sorted files (and the 1-grams as they were) writes a file; `test_count_model` finds every line of the folder with its count, and
`lookup_perf_test` gives, for queries with the n-grams of the *original* files, their original counts. -/
theorem C69_unsorted_counts {S : StdSortFn (List Byte × W)} (hS : Spec.StdSortLib S) {U : List (List Byte)} {files : List (List (List (List Byte) × Nat))}
    (a : TrieCommand F) (ha : Spec.ValidTrieArgs a.choice) (hv : a.choice.value = "count") (hun : ∀ u ∈ a.unk, u < 0) (ho : a.order = files.length)
    (h : Spec.UnsortedCounts U files (Spec.remapping a.choice)) {hvs : Mphf (List Byte) 64} (hb : hvs.BuiltFrom U) {vocMem mem extra : Nat}
    (hmem : (U.map List.length).sum ≤ vocMem) (hfit : ∀ f ∈ files, ∀ r ∈ f, (joinSp r.1).length ≤ mem)
    (hlast : ∀ f ∈ files.tail, Spec.LastBatchLarge mem (f.map Spec.lineOf)) (hlen : ∀ f ∈ files, f.length < Spec.maxLines a.choice) :
    ∃ sorted : List (List (List (List Byte) × Nat)), List.Forall₂ List.Perm sorted files ∧ sorted[0]? = files[0]? ∧
      (∀ s ∈ sorted, s.Pairwise fun p q => p.1.map (Spec.idIn U) < q.1.map (Spec.idIn U)) ∧
      (∀ (k : Nat) (f s : List (List (List Byte) × Nat)), files[k + 1]? = some f → sorted[k + 1]? = some s →
        SortTools.sortGrams S hvs vocMem mem extra [] (Spec.gramsText (files.getD 0 [])) (Spec.gramsText f) = some (.ok (Spec.gramsText s))) ∧
      ∀ E : ToolEnv F, Spec.ToolEnvOk E → E.hv.BuiltFrom U → Spec.RangeHashes E.hr sorted →
        (a.choice.dataStructure = "pef_trie" → Spec.PefFiles U sorted (Spec.remapping a.choice)) → ∀ arpa : Option (List Byte),
        ∃ binary, buildTrie E a (sorted.map Spec.gramsText) arpa = some (.ok (some binary)) ∧
          testCountModelMain E binary (sorted.map Spec.gramsText) = some (.ok (some (Spec.report binary files))) ∧
          ∀ (qs : List (List Byte × List (List Byte) × Nat)) (runs : Nat), 0 < runs →
            (∀ q ∈ qs, Spec.queryOf q.1 = joinSp q.2.1 ∧ ∃ f ∈ files, q.2 ∈ f) →
            lookupPerfTestMain E binary (qs.map (·.1)) runs = some (.ok (some (Spec.perf binary files (qs.map (·.2.2)) runs))) := by
  obtain ⟨sorted, hl, h0, hs, hp, hC, hw⟩ := C51_sorted_files_are_input (extra := extra) hS h hb hmem hfit hlast
  have hperm : List.Forall₂ List.Perm sorted files := by
    rw [List.forall₂_iff_get]
    refine ⟨hl, fun i h1 h2 => ?_⟩
    exact hp i _ _ (List.getElem?_eq_getElem h2) (List.getElem?_eq_getElem h1)
  have hlens : sorted.map List.length = files.map List.length := by
    clear hs hp hC hw h0 hl ho h hfit hlast hlen
    induction hperm with
    | nil => rfl
    | cons h1 _ ih => rw [List.map_cons, List.map_cons, h1.length_eq, ih]
  have hmemF : ∀ f ∈ files, ∃ s ∈ sorted, s.Perm f := by
    intro f hf
    obtain ⟨k, e1⟩ := List.mem_iff_getElem?.1 hf
    have := (List.getElem?_eq_some_iff.1 e1).1
    have e2 : sorted[k]? = some (sorted[k]'(by omega)) := List.getElem?_eq_getElem _
    exact ⟨_, List.mem_of_getElem? e2, hp k f _ e1 e2⟩
  refine ⟨sorted, hperm, h0, ?_, hs, ?_⟩
  · intro s hsm
    obtain ⟨k, e⟩ := List.mem_iff_getElem?.1 hsm
    have := hC.data.sorted k (s.map (·.1)) (by rw [List.getElem?_map, e]; rfl)
    have h' := List.pairwise_map.1 this
    exact h'
  intro E hE hbE hh hpef arpa
  obtain ⟨binary, b1, -, b2, b3, -, -⟩ := C69_count_trie_programs E hE a ha hv hun (ho.trans hl.symm) hC hpef hw (by
      intro s hsm
      have : s.length ∈ files.map List.length := hlens ▸ List.mem_map_of_mem hsm
      obtain ⟨f, hf, e⟩ := List.mem_map.1 this
      rw [← e]; exact hlen f hf) hbE hh (folder := sorted.map Spec.gramsText)
    (by rw [← List.length_map (f := Spec.gramsText) (as := sorted), List.take_length]) arpa
  refine ⟨binary, b1, ?_, ?_⟩
  · rw [b2]; unfold Spec.report; rw [hlens, hl]
  · intro qs runs hr hq
    rw [b3 qs runs hr fun q hqm => ⟨(hq q hqm).1, .inl ?_⟩]
    · unfold Spec.perf; rw [hlens]
    · obtain ⟨f, hf, hqf⟩ := (hq q hqm).2
      obtain ⟨s, hsm, hsp⟩ := hmemF f hf
      exact ⟨s, hsm, hsp.mem_iff.2 hqf⟩

/-- **C69** (unsorted ARPA files): take a well-formed ARPA file with one blank line after each section, the n-grams of each order in any order, the 1-grams
being the vocabulary.  `sort_arpa` sorts each of the other sections; if `std::to_string` loses no digits of the values, then `build_trie`, on the file
put together with these sections, writes a file with which `score` gives to every text the perplexities that the (quantised) model of the *original* file
gives to it. -/
theorem C69_unsorted_arpa {toStr : F → List Byte} {S : StdSortFn (List Byte × F × F)} (hS : Spec.StdSortLib S)
    (E : ToolEnv F) (hE : Spec.ToolEnvOk E) (hsort : ∀ l, (E.sort l).Perm l ∧ (E.sort l).Pairwise (· ≤ ·))
    (a : TrieCommand F) (ha : Spec.ValidTrieArgs a.choice) (hv : a.choice.value = "prob_backoff") (hun : ∀ u ∈ a.unk, u < 0)
    {U : List (List Byte)} {data : List (List (List (List Byte) × F × F))} (h : Spec.UnsortedProbs U data)
    {hvs : Mphf (List Byte) 64} (hbs : hvs.BuiltFrom U) {voc : List (List (List Byte) × Nat)} (hvoc : voc.map (·.1) = U.map fun w => [w])
    {vocMem mem extra : Nat} (hmem : (U.map List.length).sum ≤ vocMem) (lead gap : Nat) {sections : List (List (Spec.ArpaLine F) × Nat)} {tail : List Byte}
    (ho : a.order = sections.length) (hg : Spec.GoodArpa E.strtod sections tail) (hone : ∀ s ∈ sections, s.2 = 1) (hd : Spec.ArpaLists sections data)
    (hfit : ∀ f ∈ data, ∀ r ∈ f, (joinSp r.1).length ≤ mem) (hlast : ∀ f ∈ data.tail, Spec.LastBatchLarge mem (f.map fun r => (joinSp r.1, r.2)))
    (hpr : ∀ f ∈ data, ∀ r ∈ f, Spec.PrintsExactly E.strtod toStr r.2.1 ∧ (r.2.2 ≠ 0 → Spec.PrintsExactly E.strtod toStr r.2.2))
    {pb bb : Nat} (hpb : pb = a.p.getD 8) (hbb : bb = a.b.getD 8) (hq : Spec.Quantisable data pb bb) (hbits : pb + bb ≤ 58)
    (hfb : ∀ f0, data[0]? = some f0 → ∀ r ∈ f0, E.fb.dec (E.fb.enc r.2.1) = r.2.1 ∧ E.fb.dec (E.fb.enc r.2.2) = r.2.2)
    (hunk : Spec.IsFloat E.fb (Spec.unkProb Spec.unkText E.defaultUnk (data.getD 0 []) (a.unk.getD E.defaultUnk))) (hb : E.hv.BuiltFrom U) :
    ∃ sorted : List (List (List (List Byte) × F × F)), List.Forall₂ List.Perm sorted data ∧ sorted[0]? = data[0]? ∧
      (∀ s ∈ sorted, s.Pairwise fun p q => (p.1.map (Spec.idIn U)).reverse < (q.1.map (Spec.idIn U)).reverse) ∧
      (∀ (k : Nat) (s : List (List (List Byte) × F × F)), sorted[k + 1]? = some s →
        SortArpa.sortArpa E.strtod toStr S hvs vocMem mem extra (k + 2) (Spec.gramsText voc) (Spec.arpaText lead gap sections tail) =
          some (.ok (str "\\" ++ decimal (k + 2) ++ str "-grams:" ++ nl :: Spec.sectionLines (s.map (Spec.printed toStr))))) ∧
      ((∀ ps bs, Quant.codebooks E.sort E.negInf pb bb sorted = some (.ok (ps, bs)) → ∀ l ∈ ps ++ bs, ∀ x ∈ l, Spec.IsFloat E.fb x) →
       Spec.RangeHashes E.hr (TrieProb.asCounts sorted) →
       (a.choice.dataStructure = "pef_trie" → Spec.PefFiles U (TrieProb.asCounts sorted) (Spec.remapping a.choice)) → ∀ folder : List (List Byte),
        ∃ binary qp qb, buildTrie E a folder (some (Spec.arpaText lead gap (Spec.assembled toStr sections sorted) tail)) = some (.ok (some binary)) ∧
          Spec.Quantised data pb bb qp qb ∧
          ∀ text : List (List (List Byte)), Spec.IsText text →
            (∀ l ∈ text, if a.choice.dataStructure = "ef_trie" then ∀ w ∈ l, Spec.Recognised E.hv U w
              else ∀ g, Scorer.Occurs l g → Spec.PefScorable E.hv U sorted (Spec.remapping a.choice) g.reverse) →
            scoreMain E binary (textOf text) = some (.ok (some
              ((Spec.Arpa.ofData data (Spec.unkProb Spec.unkText E.defaultUnk (data.getD 0 []) (a.unk.getD E.defaultUnk)) qp qb).corpus text)))) := by
  obtain ⟨sorted, hsame, h0, hso, hG, hlists, hwd, hP⟩ :=
    C52_sorted_sections_are_input (extra := extra) hS h hbs hvoc hmem lead gap hg hone hd hfit hlast hpr
  have hlen : sections.length = data.length := by have := congrArg List.length hd; simpa [Spec.lines] using this
  have hlen' : (Spec.assembled toStr sections sorted).length = sorted.length := by
    have := congrArg List.length hlists; simpa [Spec.lines] using this
  have hgd : sorted.getD 0 [] = data.getD 0 [] := by rw [List.getD_eq_getElem?_getD, List.getD_eq_getElem?_getD, h0]
  have hro : Spec.remapping a.choice ≤ 2 := by
    unfold Spec.remapping
    cases e : a.choice.remapping with
    | none => simp
    | some r => exact ha.remapping r e
  refine ⟨sorted, hsame, h0, ?_, hso, fun hcb hh hpef folder => ?_⟩
  · intro s hsm
    obtain ⟨k, e⟩ := List.mem_iff_getElem?.1 hsm
    have := (hP 0 (by omega)).trie.sorted k (s.map (·.1.reverse)) (by rw [List.getElem?_map, e]; rfl)
    refine (List.pairwise_map.1 this).imp fun {p q} hpq => ?_
    rw [List.map_reverse, List.map_reverse] at hpq
    exact hpq
  have hsm : SortArpa.Same sorted data := hsame
  obtain ⟨binary, qp, qb, b1, -, b2, b3, -, -⟩ := C69_backoff_trie_programs E hE hsort a ha hv hun lead gap (tail := tail)
    (by rw [hlen', hsm.length_eq, ho, hlen]) hG hpb hbb hlists
    (fun s hsm r hrs w hw => ⟨(hwd s hsm r hrs w hw).1, (hwd s hsm r hrs w hw).2.1⟩) (hP _ hro) hpef (hsm.quantisable hq) hbits
    (by rw [h0]; exact hfb) hcb (by rw [hgd]; exact hunk) hb hh folder
  refine ⟨binary, qp, qb, b1, hsm.quantised b2, fun text ht hl => ?_⟩
  rw [b3 text ht hl, hsm.ofData h.arpa, hgd]

end

namespace WorkflowExample
open SaveExample EndExample FilesExample TrieProbExample ToolsExample
open MphCountExample (w)

/-- The four bigrams of C51's example, unsorted: `sort_grams` with memory for two of them at a time, `build_trie ef_trie 2 count`, `test_count_model`, and
`lookup_perf_test` with the second line of the unsorted file. -/
example : ∃ sorted : List (List (List (List Byte) × Nat)), ∃ binary,
    SortTools.sortGrams SortToolsExample.S (TextExample.mphf3 U) 10 6 0 [] (Spec.gramsText (SortToolsExample.files.getD 0 []))
      (Spec.gramsText (SortToolsExample.files.getD 1 [])) = some (.ok (Spec.gramsText (sorted.getD 1 []))) ∧
    buildTrie (env MphCountExample.hs (codecOf []) 100) ⟨⟨"ef_trie", "count", none, none⟩, 2, none, none, none⟩ (sorted.map Spec.gramsText) none =
      some (.ok (some binary)) ∧
    testCountModelMain (env MphCountExample.hs (codecOf []) 100) binary (sorted.map Spec.gramsText) = some (.ok (some ⟨binary.length, 7, [[], []]⟩)) ∧
    lookupPerfTestMain (env MphCountExample.hs (codecOf []) 100) binary [joinSp [w 2, w 0] ++ tab :: decimal 4] 1 =
      some (.ok (some ⟨binary.length, 7, 1, [[4]]⟩)) := by
  obtain ⟨sorted, h1, h2, h3, h4, h5⟩ := C69_unsorted_counts (extra := 0) (F := ℚ) (SortToolsExample.S_ok (R := List Byte × W)) (files := SortToolsExample.files)
    ⟨⟨"ef_trie", "count", none, none⟩, 2, none, none, none⟩ ⟨.inl rfl, .inl rfl, by simp, by simp⟩ rfl (by simp) rfl SortToolsExample.unsorted
    (TextExample.built3 (keys := U) rfl (by decide)) (vocMem := 10) (mem := 6) (by decide)
    (by intro f hf; simp [SortToolsExample.files] at hf; rcases hf with rfl | rfl <;> decide)
    (by
      intro f hf; simp [SortToolsExample.files] at hf; subst hf
      exact ⟨[Spec.lineOf ([w 0, w 2], 2), Spec.lineOf ([w 0, w 1], 3)], by decide +kernel, by decide⟩)
    (by simp [SortToolsExample.files, Spec.maxLines])
  have hlen : ∀ s ∈ sorted, s.length < 128 := by
    intro s hs
    obtain ⟨i, hi, rfl⟩ := List.mem_iff_getElem.1 hs
    have hi' : i < SortToolsExample.files.length := h1.length_eq ▸ hi
    have := (List.forall₂_iff_get.1 h1).2 i hi hi'
    have h4 : ∀ f ∈ SortToolsExample.files, f.length < 128 := by decide
    have h5 := h4 _ (List.getElem_mem hi')
    have := this.length_eq
    simp only [List.get_eq_getElem] at this
    omega
  have hs1 : sorted[1]? = some (sorted.getD 1 []) := by
    have : sorted.length = 2 := h1.length_eq
    rw [List.getD_eq_getElem?_getD, List.getElem?_eq_getElem (by omega)]
    rfl
  obtain ⟨binary, b1, b2, b3⟩ := h5 (env MphCountExample.hs (codecOf []) 100) (env_ok _ _ _) (TextExample.built3 (keys := U) rfl (by decide))
    (Workflow.rangeHashes_short _ hlen) (fun h => absurd h (by decide)) none
  refine ⟨sorted, binary, h4 0 _ _ rfl hs1, b1, b2, ?_⟩
  refine b3 [(joinSp [w 2, w 0] ++ tab :: decimal 4, [w 2, w 0], 4)] 1 (by decide) fun q hq => ?_
  simp only [List.mem_cons, List.not_mem_nil, or_false] at hq
  subst hq
  exact ⟨by decide +kernel, _, List.mem_of_getElem? (i := 1) rfl, by simp⟩

/-- The ARPA file of C52's example, with the bigrams and trigrams backwards: `sort_arpa`, `build_trie ef_trie 3 prob_backoff --p 2 --b 2`, and `score` with a
corpus of two sentences. -/
example : ∃ sorted : List (List (List (List Byte) × ℚ × ℚ)), ∃ binary,
    SortArpa.sortArpa strtod SortArpaExample.toStr SortToolsExample.S (TextExample.mphf3 U) 10 12 0 2 (Spec.gramsText [([w 0], 1), ([w 1], 1), ([w 2], 1)])
        (Spec.arpaText 0 0 SortArpaExample.secs [nl]) =
      some (.ok (str "\\" ++ decimal 2 ++ str "-grams:" ++ nl :: Spec.sectionLines ((sorted.getD 1 []).map (Spec.printed SortArpaExample.toStr)))) ∧
    buildTrie (env MphProbExample.hs (codecOf []) 200) ⟨⟨"ef_trie", "prob_backoff", none, none⟩, 3, none, some 2, some 2⟩ []
      (some (Spec.arpaText 0 0 (Spec.assembled SortArpaExample.toStr SortArpaExample.secs sorted) [nl])) = some (.ok (some binary)) ∧
    ∃ tot : Totals ℚ, scoreMain (env MphProbExample.hs (codecOf []) 200) binary (textOf corpus) = some (.ok (some tot)) ∧ tot.sentences = 2 ∧ tot.tokens = 5 := by
  have hquant : Spec.Quantisable SortArpaExample.data 2 2 := SortArpaExample.same.quantisable MphProbExample.data_input.quant
  obtain ⟨sorted, h1, h2, h3, h4, h5⟩ := C69_unsorted_arpa (extra := 0) (toStr := SortArpaExample.toStr) (SortToolsExample.S_ok (R := List Byte × ℚ × ℚ))
    (env MphProbExample.hs (codecOf []) 200) (env_ok _ _ _) sortQ_ok
    ⟨⟨"ef_trie", "prob_backoff", none, none⟩, 3, none, some 2, some 2⟩ ⟨.inl rfl, .inr rfl, by simp, by simp⟩ rfl (by simp) SortArpaExample.unsorted
    (TextExample.built3 (keys := U) rfl (by decide)) (voc := [([w 0], 1), ([w 1], 1), ([w 2], 1)]) rfl (vocMem := 10) (mem := 12) (by decide) 0 0
    (by rfl) SortArpaExample.secs_good (by intro s hs; simp [SortArpaExample.secs, sections] at hs; rcases hs with rfl | rfl | rfl <;> rfl) SortArpaExample.lists
    (by intro f hf; simp [SortArpaExample.data] at hf; rcases hf with rfl | rfl | rfl <;> decide)
    (by
      intro f hf
      simp [SortArpaExample.data] at hf
      rcases hf with rfl | rfl
      · exact ⟨(Spec.greedy 12 [] ((SortArpaExample.data.getD 1 []).map fun r => (joinSp r.1, r.2))).getLastD [], by decide +kernel, by decide +kernel⟩
      · exact ⟨(Spec.greedy 12 [] ((SortArpaExample.data.getD 2 []).map fun r => (joinSp r.1, r.2))).getLastD [], by decide +kernel, by decide +kernel⟩)
    (by
      intro f hf r hr
      obtain ⟨g, g1, g2⟩ := SortArpaExample.same.mem hf
      have := g2.mem_iff.1 hr
      simp [MphProbExample.data] at g1
      rcases g1 with rfl | rfl | rfl <;> simp at this <;> rcases this with rfl | rfl | rfl | rfl <;>
        exact ⟨SortArpaExample.exact _ (by simp [numbers]), fun h => by first | exact absurd rfl h | exact SortArpaExample.exact _ (by simp [numbers])⟩)
    (pb := 2) (bb := 2) rfl rfl hquant (by decide) input8.floats unk8 (TextExample.built3 (keys := U) rfl (by decide))
  -- the sorted sections are those of C28's example
  have hsorted : sorted = MphProbExample.data := by
    have hperm : List.Forall₂ List.Perm sorted MphProbExample.data := by
      rw [List.forall₂_iff_get]
      refine ⟨h1.length_eq, fun i i1 i2 => ?_⟩
      have i3 : i < SortArpaExample.data.length := h1.length_eq ▸ i1
      exact ((List.forall₂_iff_get.1 h1).2 i i1 i3).trans ((List.forall₂_iff_get.1 SortArpaExample.same).2 i i3 i2)
    refine List.ext_getElem hperm.length_eq fun i i1 i2 => ?_
    refine Workflow.sorted_unique (fun r => (r.1.map (Spec.idIn U)).reverse) ((List.forall₂_iff_get.1 hperm).2 i i1 i2) (h3 _ (List.getElem_mem i1)) ?_
    have hd : ∀ f ∈ MphProbExample.data, f.Pairwise fun p q => (p.1.map (Spec.idIn U)).reverse < (q.1.map (Spec.idIn U)).reverse := by decide +kernel
    exact hd _ (List.getElem_mem i2)
  subst hsorted
  obtain ⟨binary, qp, qb, b1, b2, b3⟩ := h5 codes8 MphProbExample.data_hashes (fun h => absurd h (by decide)) []
  refine ⟨_, binary, h4 0 _ rfl, b1, _, b3 corpus (fun l hl => ⟨(corpus_words l hl).1, fun w hw => ((corpus_words l hl).2 w hw).1⟩) ?_, rfl, rfl⟩
  intro l hl
  rw [if_pos (by decide)]
  exact fun w hw => ((corpus_words l hl).2 w hw).2

end WorkflowExample

end Tongrams
