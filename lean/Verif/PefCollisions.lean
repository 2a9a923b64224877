import Verif.Collisions
import Verif.Choice

/-!
# Hash keys that coincide, in pef tries (C66)

As Collisions.lean, for the tries whose grams or ranks are in partitioned Elias-Fano sequences: sessions of lookups and texts are answered as those in which each
word is replaced by the word it is taken for.
-/

set_option linter.unusedSectionVars false

namespace Tongrams

/-- **C66** (count tries over `uniform_pef_sequence` grams).  Any list of lookups, each of an n-gram of any words that is taken for a listed n-gram, or for an
absent one that C49 covers, is answered with the counts of the former and not-found for the latter. -/
theorem C66_pef_counts_with_collisions {K : Type} [DecidableEq K] {L : SortLib} (hL : L.Valid) {U : List K}
    {files : List (List (List K × Nat))} {ro : Nat} (h : Spec.CountFiles U files ro) (hp : Spec.PefFiles U files ro)
    {hv : Mphf K 64} (hb : hv.BuiltFrom U) {junkU junkD : Nat → List W} (hu : ∀ k, junkU k ≠ []) (hj : ∀ k, junkD k ≠ [])
    (pr : PefRanks) (hpr : ∀ f ∈ files, f.length < pr.maxLines) :
    ∃ t, StCount.build L hv (GramsSt.pef junkU junkD) (pr.impl junkU junkD) ro files = some (.ok t) ∧
      (∀ w ∈ U, Spec.takenFor hv U w = w) ∧
      ∀ session : List (List K × Nat),
        (∀ p ∈ session, ∀ taken, taken = p.1.map (Spec.takenFor hv U) →
          (∃ f ∈ files, (taken, p.2) ∈ f) ∨ (p.2 = NF ∧ Spec.PefAbsent hv U files ro taken)) →
        ∃ t', t.lookups (session.map (·.1)) = some (session.map (·.2), t') := by
  have hsz : ∀ f ∈ files, f.length < 2 ^ 57 := fun f hf => by have := TrieCount.len_of_size h hf; omega
  obtain ⟨t, e, hg⟩ := TrieCount.build_ok hL (ex := PefTrie.ClearAt U (files.map (·.map (·.1))) ro) h.data h.order_min h.order_max h.remapping
    h.counts hsz hb (PefTrie.grams_exact h hp) (PefTrie.ranks_exact h pr hpr)
  obtain ⟨t', e', hs⟩ := StCount.build_sim (PefTrie.pef_implements hu hj) (PefTrie.ranks_implements hu hj pr) e
  refine ⟨t', e', fun w hw => Collisions.self hb hw, fun session hm => ?_⟩
  obtain ⟨t'', e'', -⟩ := hs.lookups (PefTrie.mapM_stored fun p hpm => by
    rw [← Collisions.count_same e U p.1]
    exact PefTrie.answer (p := (p.1.map (Spec.takenFor hv U), p.2)) h hg (hm p hpm _ rfl))
  exact ⟨t'', e''⟩

/-- **C66** (count tries over `fast_ef_sequence` grams with any of the rank sequences, also those that queries change). -/
theorem C66_ef_counts_with_collisions {K : Type} [DecidableEq K] {L : SortLib} (hL : L.Valid) {U : List K}
    {files : List (List (List K × Nat))} {ro : Nat} (h : Spec.CountFiles U files ro)
    {hv : Mphf K 64} (hb : hv.BuiltFrom U) {hr : Nat → Mphf Nat 64} (hh : Spec.RangeHashes hr files)
    {junkU junkD : Nat → List W} (hu : ∀ k, junkU k ≠ []) (hj : ∀ k, junkD k ≠ [])
    (pr : PefRanks) (hpr : ∀ f ∈ files, f.length < pr.maxLines) :
    ∃ t, StCount.build L hv (GramsImpl.fastEF hr).st (pr.impl junkU junkD) ro files = some (.ok t) ∧
      (∀ w ∈ U, Spec.takenFor hv U w = w) ∧
      ∀ session : List (List K × Nat),
        (∀ p ∈ session, ∀ taken, taken = p.1.map (Spec.takenFor hv U) →
          (∃ f ∈ files, (taken, p.2) ∈ f) ∨ (p.2 = NF ∧ Spec.EfAbsent hv U files ro taken)) →
        ∃ t', t.lookups (session.map (·.1)) = some (session.map (·.2), t') := by
  have hsz : ∀ f ∈ files, f.length < 2 ^ 57 := fun f hf => by have := TrieCount.len_of_size h hf; omega
  obtain ⟨t, e, hg⟩ := TrieCount.build_ok hL (ex := fun _ _ => True) h.data h.order_min h.order_max h.remapping h.counts hsz hb
    (fun k prev curr h1 h2 => TrieCount.fastEF_levels h hh k prev curr h1 h2) (PefTrie.ranks_exact h pr hpr)
  obtain ⟨t', e', hs⟩ := StCount.build_sim (G := (GramsImpl.fastEF hr).st) (GramsImpl.st_implements _) (PefTrie.ranks_implements hu hj pr) e
  refine ⟨t', e', fun w hw => Collisions.self hb hw, fun session hm => ?_⟩
  obtain ⟨t'', e'', -⟩ := hs.lookups (PefTrie.mapM_stored fun p hpm => by
    rw [← Collisions.count_same e U p.1]
    rcases hm p hpm _ rfl with ⟨f, hf, hpf⟩ | ⟨h1, h2, h3, h4, h5, h6, h7⟩
    · exact TrieCount.lookup_present hg h.data h.remapping h.order_max hsz hf hpf
    · rw [h1]; exact TrieCount.absent_of_good h hg h2 h3 h4 h5 h6 h7 (fun _ _ _ _ _ _ _ => trivial) (fun _ _ _ _ _ _ => trivial))
  exact ⟨t'', e''⟩

section
variable {F : Type} [FloatArith F]

/-- **C66** (backoff tries over `uniform_pef_sequence` grams).  From the bytes of an ARPA file and of any corpus: if the corpus in which each word is replaced by
the word it is taken for meets only n-grams of `Spec.PefScorable`, the tool `score` reports the totals of that corpus. -/
theorem C66_pef_scores_with_collisions {strtod : List Byte → F × Nat} (lead gap : Nat) {sections : List (List (Spec.ArpaLine F) × Nat)} {tail : List Byte}
    (hg : Spec.GoodArpa strtod sections tail) (fb : FloatBits F) {sort : List F → List F} (hsort : ∀ l, (sort l).Perm l ∧ (sort l).Pairwise (· ≤ ·))
    (negInf default unk : F) {U : List (List Byte)} {data : List (List (List (List Byte) × F × F))} {ro pb bb : Nat}
    (hd : Spec.ArpaLists sections data) (hwords : ∀ f ∈ data, ∀ r ∈ f, ∀ w ∈ r.1, w ≠ [] ∧ sp ∉ w)
    (h : Spec.ProbFiles U data ro) (hp : Spec.PefFiles U (TrieProb.asCounts data) ro) (hq : Spec.Quantisable data pb bb) (hbits : pb + bb ≤ 58)
    (hfb : ∀ f0, data[0]? = some f0 → ∀ r ∈ f0, fb.dec (fb.enc r.2.1) = r.2.1 ∧ fb.dec (fb.enc r.2.2) = r.2.2)
    {hv : Mphf (List Byte) 64} (hb : hv.BuiltFrom U)
    {junkU junkD junk : Nat → List W} (hu : ∀ k, junkU k ≠ []) (hjd : ∀ k, junkD k ≠ []) (hj : ∀ k, junk k ≠ []) :
    ∃ t qp qb, StProb.buildArpa strtod fb sort negInf default hv (GramsSt.pef junkU junkD) (RanksImpl.cv junk).st ro unk pb bb sections.length
        (Spec.arpaText lead gap sections tail) = some (.ok t) ∧
      Spec.Quantised data pb bb qp qb ∧ (∀ w ∈ U, Spec.takenFor hv U w = w) ∧
      ∀ (text taken : List (List (List Byte))) (d : Nat) (one : F), (∀ l ∈ text, l ≠ [] ∧ ∀ w ∈ l, Spec.IsWord w) →
        taken = text.map (·.map (Spec.takenFor hv U)) →
        (∀ l ∈ taken, ∀ g, Scorer.Occurs l g → Spec.PefScorable hv U data ro g.reverse) →
        ∃ t', t.scoreText fb d one (textOf text) =
          some ((Spec.Arpa.ofData data (Spec.unkProb Spec.unkText default (data.getD 0 []) unk) qp qb).corpus taken, t') := by
  obtain ⟨ps, bs, e1, e2, e3⟩ := Quant.codebooks_ok hsort negInf h.arpa.order_min hq
  obtain ⟨t, f1, f2, f3⟩ := TrieProb.build_grams fb negInf unkBytes default unk h hb (G := PefTrie.ideal)
    (ex := PefTrie.ClearAt U (data.map (·.map (·.1.reverse))) ro)
    (fun k prev curr h1 h2 => by
      have := PefTrie.grams_exact (TrieProb.asCounts_ok h) hp k prev curr
      rw [TrieProb.asCounts_map] at this
      exact this h1 h2) hj hbits e1 e2
  obtain ⟨t', b1, hs⟩ := StProb.build_sim (G := GramsSt.pef junkU junkD) (R := (RanksImpl.cv junk).st) (PefTrie.pef_implements hu hjd)
    (RanksImpl.st_implements _) f1
  have hd0 : data[0]? = some (data.getD 0 []) := by
    rw [List.getD_eq_getElem?_getD, List.getElem?_eq_getElem (by have := h.arpa.order_min; omega)]; rfl
  refine ⟨t', _, _, by rw [StProb.buildArpa_eq lead gap hg fb sort negInf default unk ro pb bb hd hwords h.arpa, b1], e3,
    fun w hw => Collisions.self hb hw, ?_⟩
  rintro text taken d one hw rfl hV
  rw [← unkBytes_eq, ← findUnk_spec unkBytes default _ unk (h.arpa.distinct _ (List.mem_of_getElem? hd0)), ← f3 _ hd0]
  have hI : Scorer.Implements (t.scorer fb) _ (fun g => Spec.PefScorable hv U data ro g.reverse) _ :=
    (TrieProb.implements hfb h f2 e2).weaken fun g hg => ⟨fun w hw => hg.words w (List.mem_reverse.2 hw), StProb.clear_of h.arpa hg⟩
  have hwf := ArpaData.wellFormed data t.unk (Quant.quantiser ps 0) (Quant.quantiser bs 1) h.arpa
  have hvoc := Collisions.prob_voc f1
  have hfirst : ∀ w, (t.scorer fb).first (Spec.takenFor hv U w) = (t.scorer fb).first w := by
    intro w
    show (t.voc.lookupPair _).bind _ = (t.voc.lookupPair w).bind _
    rw [← hvoc, Collisions.dv_same]
  have hsame := Collisions.scoreCorpus_same hfirst d one text
  have hc := Scorer.scoreCorpus_eq hI hwf d one _ (fun ws hws g hg => hV ws hws g hg)
  rw [hsame] at hc
  obtain ⟨t'', g1, -⟩ := hs.scoreCorpus hc
  refine ⟨t'', ?_⟩
  obtain ⟨rs, tl, h1, h2, rfl, h4⟩ := C31_text_lines text hw
  unfold StProb.scoreCorpus at g1
  unfold StProb.scoreText
  rw [StScorer.scoreText_eq _ _ d one h1, h2]
  obtain ⟨r, r1, r2⟩ := Option.map_eq_some_iff.1 g1
  have r3 := congrArg Prod.fst r2
  have r4 := congrArg Prod.snd r2
  simp only at r3 r4
  rw [r1, Option.map_some, Option.map_some, ← r4, r3, h4]
  congr 2
  unfold Spec.Arpa.corpus
  simp only [List.map_map, Totals.mk.injEq, true_and, and_true]
  congr 1
  apply List.map_congr_left
  intro l _
  simp

end


namespace PefCollisionsExample
open CollisionsExample

/-- The query "7 2 1" with the unknown word 7, which is taken for 0, gets the count of "0 2 1" also in a pef trie, again and again. -/
example : ∃ t t', StCount.build exLib (mphf [0, 1, 2]) (GramsSt.pef (fun _ => [7]) fun _ => [9]) (PefRanks.impl (fun _ => [7]) (fun _ => [9]) (.pspef true)) 2
      TrieCountExample.files4 = some (.ok t) ∧ t.lookups [[7, 2, 1], [0, 2, 1], [7, 2, 1]] = some ([3, 3, 3], t') := by
  obtain ⟨t, e1, -, e3⟩ := C66_pef_counts_with_collisions exLib_valid (TrieCountExample.files4_ok 2 (by omega)) PefTrieExample.files4_pef
    (built rfl (by decide)) (junkU := fun _ => [7]) (junkD := fun _ => [9]) (by simp) (by simp) (.pspef true)
    (by simp [TrieCountExample.files4, PefRanks.maxLines])
  have hm : ∃ f ∈ TrieCountExample.files4, ([0, 2, 1], 3) ∈ f := by decide
  obtain ⟨t', e4⟩ := e3 [([7, 2, 1], 3), ([0, 2, 1], 3), ([7, 2, 1], 3)] (by
    intro p hp taken ht
    simp only [List.mem_cons, List.not_mem_nil, or_false] at hp
    rcases hp with rfl | rfl | rfl
    · rw [ht, show ([7, 2, 1] : List Nat).map (Spec.takenFor (mphf [0, 1, 2]) [0, 1, 2]) = [0, 2, 1] by decide +kernel]; exact .inl hm
    · rw [ht, show ([0, 2, 1] : List Nat).map (Spec.takenFor (mphf [0, 1, 2]) [0, 1, 2]) = [0, 2, 1] by decide +kernel]; exact .inl hm
    · rw [ht, show ([7, 2, 1] : List Nat).map (Spec.takenFor (mphf [0, 1, 2]) [0, 1, 2]) = [0, 2, 1] by decide +kernel]; exact .inl hm)
  exact ⟨t, t', e1, e4⟩

/-- The same in a trie over `fast_ef_sequence` grams with `pspef` ranks. -/
example : ∃ t t', StCount.build exLib (mphf [0, 1, 2]) (GramsImpl.fastEF fun _ => FastEF.exMphf).st (PefRanks.impl (fun _ => [7]) (fun _ => [9]) (.pspef true)) 2
      TrieCountExample.files4 = some (.ok t) ∧ t.lookups [[7, 2, 1], [0, 2, 1]] = some ([3, 3], t') := by
  obtain ⟨t, e1, -, e3⟩ := C66_ef_counts_with_collisions exLib_valid (TrieCountExample.files4_ok 2 (by omega))
    (built rfl (by decide)) TrieCountExample.hashes4 (junkU := fun _ => [7]) (junkD := fun _ => [9]) (by simp) (by simp) (.pspef true)
    (by simp [TrieCountExample.files4, PefRanks.maxLines])
  have hm : ∃ f ∈ TrieCountExample.files4, ([0, 2, 1], 3) ∈ f := by decide
  obtain ⟨t', e4⟩ := e3 [([7, 2, 1], 3), ([0, 2, 1], 3)] (by
    intro p hp taken ht
    simp only [List.mem_cons, List.not_mem_nil, or_false] at hp
    rcases hp with rfl | rfl
    · rw [ht, show ([7, 2, 1] : List Nat).map (Spec.takenFor (mphf [0, 1, 2]) [0, 1, 2]) = [0, 2, 1] by decide +kernel]; exact .inl hm
    · rw [ht, show ([0, 2, 1] : List Nat).map (Spec.takenFor (mphf [0, 1, 2]) [0, 1, 2]) = [0, 2, 1] by decide +kernel]; exact .inl hm)
  exact ⟨t, t', e1, e4⟩

open FilesExample TrieProbExample in
/-- A backoff trie: the line "f b" with the unknown word f, which is taken for a, is scored as "a b". -/
example : ∃ t, StProb.buildArpa strtod fbQ sortQ (-1000) (-100) (mphf [MphProbExample.w 0, MphProbExample.w 1, MphProbExample.w 2])
      (GramsSt.pef (fun _ => [7]) fun _ => [9]) (RanksImpl.cv fun _ => [0#64]).st 1 (-100) 2 2 3 (Spec.arpaText 0 0 sections [nl]) = some (.ok t) ∧
    ∃ tot t1 t2, t.scoreText fbQ 0 0 (textOf [[MphProbExample.w 5, MphProbExample.w 1]]) = some (tot, t1) ∧
      t.scoreText fbQ 0 0 (textOf [[MphProbExample.w 0, MphProbExample.w 1]]) = some (tot, t2) := by
  obtain ⟨t, qp, qb, e1, -, -, e⟩ := C66_pef_scores_with_collisions 0 0 good fbQ sortQ_ok (-1000) (-100) (-100) lists data_words
    MphProbExample.data_trie PefEndExample.data_pef MphProbExample.data_input.quant (by decide) MphProbExample.data_input.floats
    (built (keys := [MphProbExample.w 0, MphProbExample.w 1, MphProbExample.w 2]) rfl (by decide))
    (junkU := fun _ => [7]) (junkD := fun _ => [9]) (junk := fun _ => [0#64]) (by simp) (by simp) (by simp)
  have hocc : ∀ l ∈ [[MphProbExample.w 0, MphProbExample.w 1]], ∀ g, Scorer.Occurs l g →
      Spec.PefScorable (mphf [MphProbExample.w 0, MphProbExample.w 1, MphProbExample.w 2]) [MphProbExample.w 0, MphProbExample.w 1, MphProbExample.w 2]
        MphProbExample.data 1 g.reverse := by
    intro l hl g hg
    have hL := PefEndExample.corpus_listed l (by simp only [List.mem_cons, List.not_mem_nil, or_false] at hl; rw [hl]; simp [corpus]) g hg
    refine ⟨fun x hx => .inl ?_, fun x s _ _ _ hn _ => absurd hL hn⟩
    obtain ⟨f, hf, r, hr, e⟩ := hL
    rw [← e] at hx
    have hsub : ∀ f ∈ MphProbExample.data, ∀ r ∈ f, ∀ w ∈ r.1, w ∈ [MphProbExample.w 0, MphProbExample.w 1, MphProbExample.w 2] := by decide
    exact hsub f hf r hr x hx
  have h3 : ([[MphProbExample.w 5, MphProbExample.w 1]] : List (List (List Byte))).map (·.map (Spec.takenFor (mphf [MphProbExample.w 0, MphProbExample.w 1, MphProbExample.w 2])
      [MphProbExample.w 0, MphProbExample.w 1, MphProbExample.w 2])) = [[MphProbExample.w 0, MphProbExample.w 1]] := by decide +kernel
  have h4 : ([[MphProbExample.w 0, MphProbExample.w 1]] : List (List (List Byte))).map (·.map (Spec.takenFor (mphf [MphProbExample.w 0, MphProbExample.w 1, MphProbExample.w 2])
      [MphProbExample.w 0, MphProbExample.w 1, MphProbExample.w 2])) = [[MphProbExample.w 0, MphProbExample.w 1]] := by decide +kernel
  have hw : ∀ i, i < 8 → ∀ l ∈ [[MphProbExample.w i, MphProbExample.w 1]], l ≠ [] ∧ ∀ w ∈ l, Spec.IsWord w := by
    intro i hi l hl
    simp only [List.mem_cons, List.not_mem_nil, or_false] at hl
    subst hl
    refine ⟨by simp, fun w hw => ?_⟩
    simp only [List.mem_cons, List.not_mem_nil, or_false] at hw
    rcases hw with rfl | rfl
    · exact MphProbExample.w_word _ hi
    · exact MphProbExample.w_word _ (by decide)
  obtain ⟨t1, g1⟩ := e [[MphProbExample.w 5, MphProbExample.w 1]] [[MphProbExample.w 0, MphProbExample.w 1]] 0 0 (hw 5 (by decide)) h3.symm hocc
  obtain ⟨t2, g2⟩ := e [[MphProbExample.w 0, MphProbExample.w 1]] [[MphProbExample.w 0, MphProbExample.w 1]] 0 0 (hw 0 (by decide)) h4.symm hocc
  exact ⟨t, e1, _, t1, t2, g1, g2⟩

end PefCollisionsExample

end Tongrams
