import Verif.Choice
import Verif.Perplexity

/-!
# Totals and perplexities of pef tries (C65, C67, C68)

The theorems of Accuracy.lean, Exact.lean and Perplexity.lean for the tries whose grams are in a partitioned Elias-Fano sequence, for the texts that such
a trie scores correctly (`Spec.PefScorable`, C55).
-/

set_option linter.unusedSectionVars false

namespace Tongrams

/-- Scoring a text with a pef trie (C64, for one order of the lines). -/
theorem PefTotals.base {strtod : List Byte → Binary32 × Nat} (lead gap : Nat) {sections : List (List (Spec.ArpaLine Binary32) × Nat)}
    {tail : List Byte} (hg : Spec.GoodArpa strtod sections tail) (fb : FloatBits Binary32) {sort : List Binary32 → List Binary32}
    (hsort : ∀ l, (sort l).Perm l ∧ (sort l).Pairwise (· ≤ ·))
    (negInf default unk : Binary32) {U : List (List Byte)} {data : List (List (List (List Byte) × Binary32 × Binary32))} {ro pb bb : Nat}
    (hd : Spec.ArpaLists sections data) (hwords : ∀ f ∈ data, ∀ r ∈ f, ∀ w ∈ r.1, w ≠ [] ∧ sp ∉ w)
    (h : Spec.ProbFiles U data ro) (hp : Spec.PefFiles U (TrieProb.asCounts data) ro) (hq : Spec.Quantisable data pb bb) (hbits : pb + bb ≤ 58)
    (hfb : ∀ f0, data[0]? = some f0 → ∀ r ∈ f0, fb.dec (fb.enc r.2.1) = r.2.1 ∧ fb.dec (fb.enc r.2.2) = r.2.2)
    {hv : Mphf (List Byte) 64} (hb : hv.BuiltFrom U)
    {junkU junkD junk : Nat → List W} (hu : ∀ k, junkU k ≠ []) (hjd : ∀ k, junkD k ≠ []) (hj : ∀ k, junk k ≠ []) :
    ∃ t qp qb, StProb.buildArpa strtod fb sort negInf default hv (GramsSt.pef junkU junkD) (RanksImpl.cv junk).st ro unk pb bb sections.length
        (Spec.arpaText lead gap sections tail) = some (.ok t) ∧
      Spec.Quantised data pb bb qp qb ∧
      ∀ (text : List (List (List Byte))) (d : Nat) (one : Binary32), (∀ l ∈ text, l ≠ [] ∧ ∀ w ∈ l, Spec.IsWord w) →
        (∀ l ∈ text, ∀ g, Scorer.Occurs l g → Spec.PefScorable hv U data ro g.reverse) →
        ∃ t', t.scoreText fb d one (textOf text) =
          some ((Spec.Arpa.ofData data (Spec.unkProb Spec.unkText default (data.getD 0 []) unk) qp qb).corpus text, t') := by
  obtain ⟨qp, qb, e1, e2⟩ := C64_score_does_not_depend_on_the_structure fb hsort negInf default unk h.arpa hq
  have hs : Spec.SameLines data data := List.forall₂_same.2 fun _ _ => List.Perm.refl _
  obtain ⟨-, e3⟩ := e2 _ rfl strtod lead gap sections tail data hg hd hs
  obtain ⟨-, e4⟩ := e3 U ro hv h hb hbits hwords hfb junk hj
  obtain ⟨t, f1, f2⟩ := e4 junkU junkD hu hjd hp
  exact ⟨t, qp, qb, f1, e1, f2⟩

/-- **C65** (pef trie).  As `C65_trie_totals_are_accurate`, for the texts that meet only n-grams of `Spec.PefScorable`. -/
theorem C65_pef_totals_are_accurate {strtod : List Byte → Binary32 × Nat} (lead gap : Nat) {sections : List (List (Spec.ArpaLine Binary32) × Nat)}
    {tail : List Byte} (hg : Spec.GoodArpa strtod sections tail) (fb : FloatBits Binary32) {sort : List Binary32 → List Binary32}
    (hsort : ∀ l, (sort l).Perm l ∧ (sort l).Pairwise (· ≤ ·))
    (negInf default unk : Binary32) {U : List (List Byte)} {data : List (List (List (List Byte) × Binary32 × Binary32))} {ro pb bb : Nat}
    (hd : Spec.ArpaLists sections data) (hwords : ∀ f ∈ data, ∀ r ∈ f, ∀ w ∈ r.1, w ≠ [] ∧ sp ∉ w)
    (h : Spec.ProbFiles U data ro) (hp : Spec.PefFiles U (TrieProb.asCounts data) ro) (hq : Spec.Quantisable data pb bb) (hbits : pb + bb ≤ 58)
    (hfb : ∀ f0, data[0]? = some f0 → ∀ r ∈ f0, fb.dec (fb.enc r.2.1) = r.2.1 ∧ fb.dec (fb.enc r.2.2) = r.2.2)
    {hv : Mphf (List Byte) 64} (hb : hv.BuiltFrom U)
    {junkU junkD junk : Nat → List W} (hu : ∀ k, junkU k ≠ []) (hjd : ∀ k, junkD k ≠ []) (hj : ∀ k, junk k ≠ []) :
    ∃ t qp qb, StProb.buildArpa strtod fb sort negInf default hv (GramsSt.pef junkU junkD) (RanksImpl.cv junk).st ro unk pb bb sections.length
        (Spec.arpaText lead gap sections tail) = some (.ok t) ∧
      Spec.Quantised data pb bb qp qb ∧
      ∀ A, A = Spec.Arpa.ofData data (Spec.unkProb Spec.unkText default (data.getD 0 []) unk) qp qb →
      ∀ (text : List (List (List Byte))) (d L : Nat) (one : Binary32), (∀ l ∈ text, l ≠ [] ∧ ∀ w ∈ l, Spec.IsWord w) →
        (∀ l ∈ text, ∀ g, Scorer.Occurs l g → Spec.PefScorable hv U data ro g.reverse) →
        (∀ l ∈ text, l.length ≤ L) → (∀ l ∈ text, ∀ p ∈ A.wordScores l, p.1 ≤ 0) →
        ∃ tot t', t.scoreText fb d one (textOf text) = some (tot, t') ∧ Spec.Accurate (text.map A.wordScores) L tot := by
  obtain ⟨t, qp, qb, e1, e2, e3⟩ := PefTotals.base lead gap hg fb hsort negInf default unk hd hwords h hp hq hbits hfb hb hu hjd hj
  refine ⟨t, qp, qb, e1, e2, ?_⟩
  rintro A rfl text d L one ht hs hL hneg
  obtain ⟨t', e4⟩ := e3 text d one ht hs
  exact ⟨_, t', e4, Accuracy.corpus_accurate _ text L hL hneg⟩

/-- **C67** (pef trie).  As `C67_trie_total_of_the_file`, for the texts that meet only n-grams of `Spec.PefScorable`. -/
theorem C67_pef_total_of_the_file {strtod : List Byte → Binary32 × Nat} (lead gap : Nat) {sections : List (List (Spec.ArpaLine Binary32) × Nat)}
    {tail : List Byte} (hg : Spec.GoodArpa strtod sections tail) (fb : FloatBits Binary32) {sort : List Binary32 → List Binary32}
    (hsort : ∀ l, (sort l).Perm l ∧ (sort l).Pairwise (· ≤ ·))
    (negInf default unk : Binary32) {U : List (List Byte)} {data : List (List (List (List Byte) × Binary32 × Binary32))} {ro pb bb : Nat}
    (hd : Spec.ArpaLists sections data) (hwords : ∀ f ∈ data, ∀ r ∈ f, ∀ w ∈ r.1, w ≠ [] ∧ sp ∉ w)
    (h : Spec.ProbFiles U data ro) (hp : Spec.PefFiles U (TrieProb.asCounts data) ro) (hq : Spec.Quantisable data pb bb) (hbits : pb + bb ≤ 58)
    (hfb : ∀ f0, data[0]? = some f0 → ∀ r ∈ f0, fb.dec (fb.enc r.2.1) = r.2.1 ∧ fb.dec (fb.enc r.2.2) = r.2.2)
    {hv : Mphf (List Byte) 64} (hb : hv.BuiltFrom U)
    {junkU junkD junk : Nat → List W} (hu : ∀ k, junkU k ≠ []) (hjd : ∀ k, junkD k ≠ []) (hj : ∀ k, junk k ≠ [])
    (hm : Spec.ContextsMatter data) (hl : Spec.LogValues data) (hdef : default ≤ 0) (hunk : unk ≤ 0) :
    ∃ t qp qb, StProb.buildArpa strtod fb sort negInf default hv (GramsSt.pef junkU junkD) (RanksImpl.cv junk).st ro unk pb bb sections.length
        (Spec.arpaText lead gap sections tail) = some (.ok t) ∧
      Spec.Quantised data pb bb qp qb ∧
      ∀ δ, 0 ≤ δ → Spec.QuantisedWithin data qp qb δ →
      ∀ (text : List (List (List Byte))) (d L : Nat) (one : Binary32), (∀ l ∈ text, l ≠ [] ∧ ∀ w ∈ l, Spec.IsWord w) →
        (∀ l ∈ text, ∀ g, Scorer.Occurs l g → Spec.PefScorable hv U data ro g.reverse) →
        (∀ l ∈ text, l.length ≤ L) → data.length + L + text.length ≤ 2 ^ 23 →
      ∀ T ε, T = (Spec.Arpa.ofData data (Spec.unkProb Spec.unkText default (data.getD 0 []) unk) (fun _ v => v) (fun _ v => v)).exact.exactTotal text →
        ε = ((data.length + L + text.length : Nat) : ℚ) / 2 ^ 23 →
        ∃ tot t', t.scoreText fb d one (textOf text) = some (tot, t') ∧
          |tot.total.1 - T| ≤ ε * |T| + (1 + ε) * (data.length * δ * (text.map List.length).sum) := by
  obtain ⟨t, qp, qb, e1, e2, e3⟩ := PefTotals.base lead gap hg fb hsort negInf default unk hd hwords h hp hq hbits hfb hb hu hjd hj
  refine ⟨t, qp, qb, e1, e2, ?_⟩
  intro δ hδ hw text d L one ht hs hL hn T ε hT hε
  obtain ⟨t', e4⟩ := e3 text d one ht hs
  exact ⟨_, t', e4, Exact.reported h.arpa hm hl e2 (Exact.unk_nonpos hl _ hdef hunk) hδ hw text L hL hn T ε hT hε⟩

/-- **C68** (pef trie).  The perplexity of a text that meets only n-grams of `Spec.PefScorable` is at least 1, and both perplexities are close to those of the
text under the ARPA file. -/
theorem C68_pef_perplexities {strtod : List Byte → Binary32 × Nat} (lead gap : Nat) {sections : List (List (Spec.ArpaLine Binary32) × Nat)}
    {tail : List Byte} (hg : Spec.GoodArpa strtod sections tail) (fb : FloatBits Binary32) {sort : List Binary32 → List Binary32}
    (hsort : ∀ l, (sort l).Perm l ∧ (sort l).Pairwise (· ≤ ·))
    (negInf default unk : Binary32) {U : List (List Byte)} {data : List (List (List (List Byte) × Binary32 × Binary32))} {ro pb bb : Nat}
    (hd : Spec.ArpaLists sections data) (hwords : ∀ f ∈ data, ∀ r ∈ f, ∀ w ∈ r.1, w ≠ [] ∧ sp ∉ w)
    (h : Spec.ProbFiles U data ro) (hp : Spec.PefFiles U (TrieProb.asCounts data) ro) (hq : Spec.Quantisable data pb bb) (hbits : pb + bb ≤ 58)
    (hfb : ∀ f0, data[0]? = some f0 → ∀ r ∈ f0, fb.dec (fb.enc r.2.1) = r.2.1 ∧ fb.dec (fb.enc r.2.2) = r.2.2)
    {hv : Mphf (List Byte) 64} (hb : hv.BuiltFrom U)
    {junkU junkD junk : Nat → List W} (hu : ∀ k, junkU k ≠ []) (hjd : ∀ k, junkD k ≠ []) (hj : ∀ k, junk k ≠ [])
    (hm : Spec.ContextsMatter data) (hl : Spec.LogValues data) (hdef : default ≤ 0) (hunk : unk ≤ 0) :
    ∃ t qp qb, StProb.buildArpa strtod fb sort negInf default hv (GramsSt.pef junkU junkD) (RanksImpl.cv junk).st ro unk pb bb sections.length
        (Spec.arpaText lead gap sections tail) = some (.ok t) ∧
      Spec.Quantised data pb bb qp qb ∧
      ∀ (text : List (List (List Byte))) (d : Nat) (one : Binary32), (∀ l ∈ text, l ≠ [] ∧ ∀ w ∈ l, Spec.IsWord w) →
        (∀ l ∈ text, ∀ g, Scorer.Occurs l g → Spec.PefScorable hv U data ro g.reverse) → text ≠ [] →
        ∃ tot t', t.scoreText fb d one (textOf text) = some (tot, t') ∧ 1 ≤ tot.perplexity ∧
          ∀ δ, 0 ≤ δ → Spec.QuantisedWithin data qp qb δ → ∀ L, (∀ l ∈ text, l.length ≤ L) → data.length + L + text.length ≤ 2 ^ 23 →
          Spec.PerplexitiesClose (Spec.Arpa.ofData data (Spec.unkProb Spec.unkText default (data.getD 0 []) unk) (fun _ v => v) (fun _ v => v)).exact text L δ tot := by
  obtain ⟨t, qp, qb, e1, e2, e3⟩ := PefTotals.base lead gap hg fb hsort negInf default unk hd hwords h hp hq hbits hfb hb hu hjd hj
  refine ⟨t, qp, qb, e1, e2, ?_⟩
  intro text d one ht hs _
  obtain ⟨t', e4⟩ := e3 text d one ht hs
  refine ⟨_, t', e4, Perplexity.at_least_one (Perplexity.total_nonpos (Exact.nonpos h.arpa hm hl e2 (Exact.unk_nonpos hl _ hdef hunk)) ?_ ?_), ?_⟩
  · have := h.arpa.order_min
    show 1 ≤ data.length
    omega
  · exact fun ws _ => Scorer.wordScores_textbook (ArpaData.wellFormed data _ _ _ h.arpa) (ArpaData.nonZeroContexts h.arpa hm e2 _) ws
  · intro δ hδ hw L hL hn
    exact Perplexity.close h.arpa hm hl e2 (Exact.unk_nonpos hl _ hdef hunk) hδ hw text (fun l hl => (ht l hl).1) L hL hn


namespace PefTotalsExample
open AccuracyExample ExactExample
open MphProbExample (w w_word)

theorem pef32 : Spec.PefFiles [w 0, w 1, w 2] (TrieProb.asCounts AccuracyExample.data) 1 := by
  have e : TrieProb.asCounts AccuracyExample.data = TrieProb.asCounts MphProbExample.data := by
    unfold TrieProb.asCounts AccuracyExample.data
    rw [List.map_map]
    apply List.map_congr_left
    intro f _
    simp only [Function.comp_apply, List.map_map]
    rfl
  rw [e]
  exact PefEndExample.data_pef

/-- The n-grams that the line "a b" meets are listed. -/
theorem scorable {n : Nat} : ∀ l ∈ List.replicate n [w 0, w 1], ∀ g, Scorer.Occurs l g →
    Spec.PefScorable (TextExample.mphf3 [w 0, w 1, w 2]) [w 0, w 1, w 2] AccuracyExample.data 1 g.reverse := by
  intro l hl g hg
  rw [List.eq_of_mem_replicate hl] at hg
  have hL : Spec.Listed AccuracyExample.data g.reverse := by
    have hr : ∃ f ∈ MphProbExample.data, ∃ r ∈ f, r.1 = g.reverse := by
      obtain ⟨i, k, h1, h2, rfl⟩ := hg
      rcases i with _ | _ | i
      · rcases k with _ | k
        · omega
        · exact ⟨_, List.mem_of_getElem? (i := 0) rfl, _, List.mem_of_getElem? (i := 0) rfl, by simp⟩
      · rcases k with _ | _ | k
        · omega
        · exact ⟨_, List.mem_of_getElem? (i := 0) rfl, _, List.mem_of_getElem? (i := 1) rfl, by simp⟩
        · exact ⟨_, List.mem_of_getElem? (i := 1) rfl, _, List.mem_of_getElem? (i := 2) rfl, by simp⟩
      · simp at h1
    obtain ⟨f, hf, r, hr, e⟩ := hr
    exact ⟨_, List.mem_map_of_mem hf, _, List.mem_map_of_mem hr, e⟩
  refine ⟨fun x hx => .inl ?_, fun x s _ _ _ hn _ => absurd hL hn⟩
  obtain ⟨i, k, h1, h2, rfl⟩ := hg
  simp only [List.mem_reverse] at hx
  have := List.mem_of_mem_take hx
  simp only [List.mem_reverse] at this
  have := List.mem_of_mem_take this
  simp only [List.mem_cons, List.not_mem_nil, or_false] at this ⊢
  rcases this with rfl | rfl <;> simp

/-- `n` lines "a b" scored by a pef trie. -/
example : ∃ t, StProb.buildArpa strtod32 fb32 (List.insertionSort (· ≤ ·)) (Binary32.ofRat (-1000)) (Binary32.ofRat (-100))
      (TextExample.mphf3 [w 0, w 1, w 2]) (GramsSt.pef (fun _ => [7]) fun _ => [9]) (RanksImpl.cv fun _ => [0#64]).st 1
      (Binary32.ofRat (-100)) 2 2 3 (Spec.arpaText 0 0 sections32 [nl]) = some (.ok t) ∧
    ∀ n : Nat, n ≤ 8000000 → ∃ tot t', t.scoreText fb32 0 0 (textOf (List.replicate n [w 0, w 1])) = some (tot, t') ∧
      |tot.total.1 - n * (-5/2)| ≤ ((5 + n : Nat) : ℚ) / 2 ^ 23 * |(n : ℚ) * (-5/2)| := by
  obtain ⟨t, qp, qb, e1, e2, e3⟩ := C67_pef_total_of_the_file 0 0 good32 fb32 sort32 (Binary32.ofRat (-1000)) (Binary32.ofRat (-100))
    (Binary32.ofRat (-100)) lists32 words32 trie32 pef32 quant32 (by decide) floats32
    (TextExample.built3 (keys := [w 0, w 1, w 2]) rfl (by decide)) (junkU := fun _ => [7]) (junkD := fun _ => [9]) (junk := fun _ => [0#64])
    (by simp) (by simp) (by simp) contexts logs (le0 (by norm_num)) (le0 (by norm_num))
  refine ⟨t, e1, fun n hn => ?_⟩
  obtain ⟨tot, t', t1, t2⟩ := e3 0 (le_refl _) (C67_quantisation_within_spread e2 (le_refl _) spread) (List.replicate n [w 0, w 1]) 0 2 0 (by
      intro l hl
      rw [List.eq_of_mem_replicate hl]
      refine ⟨by simp, fun x hx => ?_⟩
      simp at hx
      rcases hx with rfl | rfl
      · exact w_word _ (by decide)
      · exact w_word _ (by decide)) scorable (by
      intro l hl
      rw [List.eq_of_mem_replicate hl]; simp) (by
      rw [List.length_replicate]; show 3 + 2 + n ≤ _; omega) _ _ rfl rfl
  rw [exact32, List.length_replicate] at t2
  refine ⟨tot, t', t1, le_trans t2 (le_of_eq ?_)⟩
  rw [mul_zero, zero_mul, mul_zero, add_zero]
  rfl

/-- The hypotheses of C65 and C68. -/
example : ∃ t, StProb.buildArpa strtod32 fb32 (List.insertionSort (· ≤ ·)) (Binary32.ofRat (-1000)) (Binary32.ofRat (-100))
      (TextExample.mphf3 [w 0, w 1, w 2]) (GramsSt.pef (fun _ => [7]) fun _ => [9]) (RanksImpl.cv fun _ => [0#64]).st 1
      (Binary32.ofRat (-100)) 2 2 3 (Spec.arpaText 0 0 sections32 [nl]) = some (.ok t) ∧
    ∃ tot t', t.scoreText fb32 0 0 (textOf (List.replicate 3 [w 0, w 1])) = some (tot, t') ∧ 1 ≤ tot.perplexity := by
  obtain ⟨t, qp, qb, e1, e2, e3⟩ := C68_pef_perplexities 0 0 good32 fb32 sort32 (Binary32.ofRat (-1000)) (Binary32.ofRat (-100))
    (Binary32.ofRat (-100)) lists32 words32 trie32 pef32 quant32 (by decide) floats32
    (TextExample.built3 (keys := [w 0, w 1, w 2]) rfl (by decide)) (junkU := fun _ => [7]) (junkD := fun _ => [9]) (junk := fun _ => [0#64])
    (by simp) (by simp) (by simp) contexts logs (le0 (by norm_num)) (le0 (by norm_num))
  obtain ⟨tot, t', t1, t2, -⟩ := e3 (List.replicate 3 [w 0, w 1]) 0 0 (by
      intro l hl
      rw [List.eq_of_mem_replicate hl]
      refine ⟨by simp, fun x hx => ?_⟩
      simp at hx
      rcases hx with rfl | rfl
      · exact w_word _ (by decide)
      · exact w_word _ (by decide)) scorable (by simp)
  exact ⟨t, e1, tot, t', t1, t2⟩

example : ∃ t, StProb.buildArpa strtod32 fb32 (List.insertionSort (· ≤ ·)) (Binary32.ofRat (-1000)) (Binary32.ofRat (-100))
      (TextExample.mphf3 [w 0, w 1, w 2]) (GramsSt.pef (fun _ => [7]) fun _ => [9]) (RanksImpl.cv fun _ => [0#64]).st 1
      (Binary32.ofRat (-100)) 2 2 3 (Spec.arpaText 0 0 sections32 [nl]) = some (.ok t) := by
  obtain ⟨t, -, -, e1, -⟩ := C65_pef_totals_are_accurate 0 0 good32 fb32 sort32 (Binary32.ofRat (-1000)) (Binary32.ofRat (-100))
    (Binary32.ofRat (-100)) lists32 words32 trie32 pef32 quant32 (by decide) floats32
    (TextExample.built3 (keys := [w 0, w 1, w 2]) rfl (by decide)) (junkU := fun _ => [7]) (junkD := fun _ => [9]) (junk := fun _ => [0#64])
    (by simp) (by simp) (by simp)
  exact ⟨t, e1⟩

end PefTotalsExample

end Tongrams
