import Verif.ScoreText
import Verif.Sizes
import Verif.Accept

/-!
# Hash keys that coincide (C66)

The vocabulary of a trie and the tables of a hash model do not keep the words or n-grams themselves but their hash keys (mph_tables.hpp): a word that
was never inserted, but whose hash key is that of the word that owns the slot it is mapped to, is taken for that word.  Here: this is all that can
happen.  Every look-up and every score of a trie, with unknown words of any kind, is the look-up or score with each word replaced by the word it is
taken for.
-/

set_option linter.unusedSectionVars false

namespace Tongrams

/-- Specification: the key that `w` is taken for by a table with the keys `U` and the hash function `hv`: the key in the slot of `w`, if it has
the hash key of `w`; otherwise `w` itself. -/
def Spec.takenFor {K : Type} {B : Nat} (hv : Mphf K B) (U : List K) (w : K) : K :=
  (U.find? fun u => decide (hv.lookup u = hv.lookup w ∧ Mphf.mix (hv.hasher u) = Mphf.mix (hv.hasher w))).getD w

namespace Collisions
variable {K : Type} {B : Nat}

/-- Either some key of the slot has the hash key, or `w` is left as it is. -/
theorem cases (hv : Mphf K B) (U : List K) (w : K) :
    (Spec.takenFor hv U w ∈ U ∧ hv.lookup (Spec.takenFor hv U w) = hv.lookup w ∧ Mphf.mix (hv.hasher (Spec.takenFor hv U w)) = Mphf.mix (hv.hasher w)) ∨
    (Spec.takenFor hv U w = w ∧ ∀ u ∈ U, hv.lookup u = hv.lookup w → Mphf.mix (hv.hasher w) ≠ Mphf.mix (hv.hasher u)) := by
  unfold Spec.takenFor
  cases h : U.find? fun u => decide (hv.lookup u = hv.lookup w ∧ Mphf.mix (hv.hasher u) = Mphf.mix (hv.hasher w)) with
  | some u =>
    have h1 := List.find?_some h
    have h2 := List.mem_of_find?_eq_some h
    exact .inl ⟨h2, (of_decide_eq_true h1).1, (of_decide_eq_true h1).2⟩
  | none =>
    refine .inr ⟨rfl, fun u hu h1 h2 => ?_⟩
    have := List.find?_eq_none.1 h u hu
    exact this (decide_eq_true ⟨h1, h2.symm⟩)

/-- The position and the hash key are those of the key. -/
theorem same (hv : Mphf K B) (U : List K) (w : K) :
    hv.lookup (Spec.takenFor hv U w) = hv.lookup w ∧ Mphf.mix (hv.hasher (Spec.takenFor hv U w)) = Mphf.mix (hv.hasher w) := by
  rcases cases hv U w with ⟨-, h1, h2⟩ | ⟨h1, -⟩
  · exact ⟨h1, h2⟩
  · rw [h1]; exact ⟨rfl, rfl⟩

/-- What a word is taken for is in the table, or is recognised as absent. -/
theorem recognised {hv : Mphf K B} {U : List K} {w : K} (hw : hv.lookup w ≠ some U.length) : Spec.Recognised hv U (Spec.takenFor hv U w) := by
  rcases cases hv U w with ⟨h, -, -⟩ | ⟨h1, h2⟩
  · exact .inl h
  · rw [h1]; exact .inr ⟨hw, h2⟩

/-- A key is taken for itself. -/
theorem self {hv : Mphf K B} {U : List K} (hb : hv.BuiltFrom U) {w : K} (hw : w ∈ U) : Spec.takenFor hv U w = w := by
  rcases cases hv U w with ⟨h1, h2, -⟩ | ⟨h1, -⟩
  · obtain ⟨ps, e1, e2, -, -⟩ := hb.positions (by intro e; rw [e] at hw; simp at hw)
    have hinj : (U.map hv.lookup).Nodup := by
      rw [e1, List.Nodup, List.pairwise_map]
      exact e2.imp fun h e => h (Option.some.inj e)
    exact List.inj_on_of_nodup_map hinj h1 hw h2
  · exact h1

theorem sv_same {t : SVTable K B} (U : List K) (w : K) : t.lookup (Spec.takenFor t.h U w) = t.lookup w := by
  obtain ⟨h1, h2⟩ := same t.h U w
  unfold SVTable.lookup
  rw [show t.h.lookupHashes (t.h.hasher (Spec.takenFor t.h U w)) = t.h.lookupHashes (t.h.hasher w) from h1, h2]

theorem dv_same {t : DVTable K B} (U : List K) (w : K) : t.lookupPair (Spec.takenFor t.h U w) = t.lookupPair w := by
  obtain ⟨h1, h2⟩ := same t.h U w
  unfold DVTable.lookupPair
  rw [show t.h.lookupHashes (t.h.hasher (Spec.takenFor t.h U w)) = t.h.lookupHashes (t.h.hasher w) from h1, h2]

/-- The vocabulary of a count trie. -/
theorem count_voc [DecidableEq K] {L : SortLib} {hv : Mphf K 64} {G : GramsImpl} {R : RanksImpl} {ro : Nat} {files : List (List (List K × Nat))} {t : TrieCount K}
    (h : TrieCount.build L hv G R ro files = some (.ok t)) (U : List K) (w : K) : t.voc (Spec.takenFor hv U w) = t.voc w := by
  unfold TrieCount.build at h
  split at h
  · cases h
  obtain ⟨_, -, h⟩ := Res.bind_ok_iff h
  obtain ⟨_, -, h⟩ := Res.bind_ok_iff h
  obtain ⟨_, -, h⟩ := Res.bind_ok_iff h
  obtain ⟨_, -, h⟩ := Res.bind_ok_iff h
  obtain ⟨v, e5, h⟩ := Res.bind_ok_iff h
  obtain ⟨_, -, h⟩ := Res.bind_ok_iff h
  obtain ⟨_, -, h⟩ := Res.bind_ok_iff h
  cases h
  have e5 := Res.lift_ok_iff e5
  obtain ⟨f0, -, e5⟩ := Option.bind_eq_some_iff.1 e5
  have := Sizes.buildVocab_h e5
  subst this
  show (v.lookup _).map BitVec.toNat = (v.lookup w).map BitVec.toNat
  rw [sv_same]

theorem mapQueryLoop_same {voc : K → Option Nat} {g : K → K} (h : ∀ w, voc (g w) = voc w) (arrs : List SortedArray) (ro : Nat) (q : List K) :
    ∀ (order : Nat) (raw wids : List Nat), TrieCount.mapQueryLoop voc arrs ro (q.map g) order raw wids = TrieCount.mapQueryLoop voc arrs ro q order raw wids := by
  induction q with
  | nil => intro order raw wids; rfl
  | cons w ws ih =>
    intro order raw wids
    rw [List.map_cons, TrieCount.mapQueryLoop, TrieCount.mapQueryLoop, h]
    simp only [ih]

theorem count_same [DecidableEq K] {L : SortLib} {hv : Mphf K 64} {G : GramsImpl} {R : RanksImpl} {ro : Nat} {files : List (List (List K × Nat))} {t : TrieCount K}
    (h : TrieCount.build L hv G R ro files = some (.ok t)) (U : List K) (q : List K) : t.lookup (q.map (Spec.takenFor hv U)) = t.lookup q := by
  unfold TrieCount.lookup
  rw [mapQueryLoop_same (count_voc h U)]

theorem prob_voc {F : Type} [DecidableEq K] [FloatArith F] {fb : FloatBits F} {sort : List F → List F} {negInf : F}
    {unkWord : K} {default unk : F} {data : List (List (List K × F × F))} {ro pb bb : Nat}
    {hv : Mphf K 64} {G : GramsImpl} {R : RanksImpl}
    {t : TrieProb K F} (h : TrieProb.build fb sort negInf unkWord default hv G R ro unk pb bb data = some (.ok t)) : t.voc.h = hv := by
  unfold TrieProb.build at h
  split at h
  · cases h
  obtain ⟨_, -, h⟩ := Res.bind_ok_iff h
  obtain ⟨_, -, h⟩ := Res.bind_ok_iff h
  obtain ⟨_, e5, h⟩ := Res.bind_ok_iff h
  obtain ⟨_, -, h⟩ := Res.bind_ok_iff h
  obtain ⟨_, -, h⟩ := Res.bind_ok_iff h
  cases h
  exact Sizes.buildProbVocab_h (Res.lift_ok_iff e5)

section
variable {Wd F C : Type} [LogProb F] {S : Scorer K Wd F C} {g : K → K}

theorem score_same (h : ∀ w, S.first (g w) = S.first w) (st : PState Wd F) (w : K) : S.score st (g w) = S.score st w := by
  unfold Scorer.score
  rw [h]

theorem line_same (h : ∀ w, S.first (g w) = S.first w) (l : List K) : ∀ (st : PState Wd F) (sum oov : F),
    S.lineLoop (l.map g) st sum oov = S.lineLoop l st sum oov := by
  induction l with
  | nil => intro st sum oov; rfl
  | cons w ws ih =>
    intro st sum oov
    rw [List.map_cons, Scorer.lineLoop, Scorer.lineLoop, score_same h]
    simp only [ih]

theorem corpus_same (h : ∀ w, S.first (g w) = S.first w) (text : List (List K)) : ∀ (st : PState Wd F) (tot : Totals F),
    S.corpusLoop (text.map (·.map g)) st tot = S.corpusLoop text st tot := by
  induction text with
  | nil => intro st tot; rfl
  | cons l ls ih =>
    intro st tot
    rw [List.map_cons, Scorer.corpusLoop, Scorer.corpusLoop]
    simp only [line_same h, ih, List.length_map]

theorem scoreCorpus_same (h : ∀ w, S.first (g w) = S.first w) (d : Wd) (one : F) (text : List (List K)) :
    S.scoreCorpus d one (text.map (·.map g)) = S.scoreCorpus d one text := by
  unfold Scorer.scoreCorpus
  simp only [corpus_same h]

end

end Collisions

/-- **C66** (count tries).  Whatever words a query consists of (as long as the hash function keeps them within the table): the answer is the one for the
query in which each word is replaced by the word it is taken for: the count of that n-gram if it is listed; not-found if it is not (and the conditions of C25 hold).
A word of the vocabulary is taken for itself. -/
theorem C66_trie_counts_with_collisions {K : Type} [DecidableEq K] {L : SortLib} (hL : L.Valid) {U : List K}
    {files : List (List (List K × Nat))} {ro : Nat} (h : Spec.CountFiles U files ro) {hv : Mphf K 64} (hb : hv.BuiltFrom U)
    {hr : Nat → Mphf Nat 64} (hh : Spec.RangeHashes hr files) (cr : CountRanks) (hcr : cr = .psef → ∀ f ∈ files, f.length < 2 ^ 32) :
    ∃ t, TrieCount.build L hv (GramsImpl.fastEF hr) cr.impl ro files = some (.ok t) ∧
      (∀ w ∈ U, Spec.takenFor hv U w = w) ∧
      ∀ query taken : List K, taken = query.map (Spec.takenFor hv U) →
        (∀ f ∈ files, ∀ count, (taken, count) ∈ f → t.lookup query = some count) ∧
        (query ≠ [] → query.length ≤ files.length → (∀ w ∈ query, hv.lookup w ≠ some U.length) → ¬ Spec.Stored files taken →
          (∀ j, 1 ≤ j → j < query.length → Spec.Stored files (taken.take j) → ∃ x, Spec.Stored files (taken.take j ++ [x])) →
          (ro ≠ 0 → ∀ i, ro < i → i < query.length → (∀ w ∈ taken.take (i + 1), w ∈ U) →
            Spec.Stored files ((taken.take i).drop (i - ro)) ∧ ∃ x, Spec.Stored files ((taken.take i).drop (i - ro) ++ [x])) →
          t.lookup query = some NF) := by
  obtain ⟨t, e1, e2⟩ := C24_stored_gram_returns_its_count hL h hb hh cr hcr
  obtain ⟨t', e1', e3⟩ := C25_absent_gram_not_found hL h hb hh cr hcr
  rw [e1] at e1'; cases e1'
  refine ⟨t, e1, fun w hw => Collisions.self hb hw, ?_⟩
  · rintro query taken rfl
    constructor
    · intro f hf count hc
      rw [← Collisions.count_same e1 U query]
      exact e2 f hf _ _ hc
    · intro hne hlen hw hs h1 h2
      rw [← Collisions.count_same e1 U query]
      refine e3 _ (by simpa using hne) (by simpa using hlen) hs ?_ (by simpa using h1) (by simpa using h2)
      intro v hv' hv''
      obtain ⟨w, hm, rfl⟩ := List.mem_map.1 hv'
      rcases Collisions.recognised (hw w hm) with h3 | h3
      · exact absurd h3 hv''
      · exact h3

section
variable {F : Type} [FloatArith F]

/-- **C66** (backoff tries).  From the bytes of an ARPA file and of any corpus whose words the hash function keeps within the table: the tool `score` reports
the totals of the corpus in which each word is replaced by the word it is taken for. -/
theorem C66_trie_scores_with_collisions {strtod : List Byte → F × Nat} (lead gap : Nat) {sections : List (List (Spec.ArpaLine F) × Nat)} {tail : List Byte}
    (hg : Spec.GoodArpa strtod sections tail) (fb : FloatBits F) {sort : List F → List F} (hsort : ∀ l, (sort l).Perm l ∧ (sort l).Pairwise (· ≤ ·))
    (negInf default unk : F) {U : List (List Byte)} {data : List (List (List (List Byte) × F × F))} {ro pb bb : Nat}
    (hd : Spec.ArpaLists sections data) (hwords : ∀ f ∈ data, ∀ r ∈ f, ∀ w ∈ r.1, w ≠ [] ∧ sp ∉ w)
    (h : Spec.ProbFiles U data ro) (hq : Spec.Quantisable data pb bb) (hbits : pb + bb ≤ 58)
    (hfb : ∀ f0, data[0]? = some f0 → ∀ r ∈ f0, fb.dec (fb.enc r.2.1) = r.2.1 ∧ fb.dec (fb.enc r.2.2) = r.2.2)
    {hv : Mphf (List Byte) 64} (hb : hv.BuiltFrom U) {hr : Nat → Mphf Nat 64} (hh : Spec.RangeHashes hr (TrieProb.asCounts data))
    {junk : Nat → List W} (hj : ∀ k, junk k ≠ []) :
    ∃ t qp qb, TrieProb.buildArpa strtod fb sort negInf default hv (GramsImpl.fastEF hr) (RanksImpl.cv junk) ro unk pb bb sections.length
        (Spec.arpaText lead gap sections tail) = some (.ok t) ∧
      Spec.Quantised data pb bb qp qb ∧ (∀ w ∈ U, Spec.takenFor hv U w = w) ∧
      ∀ (text : List (List (List Byte))) (d : Nat) (one : F), (∀ l ∈ text, l ≠ [] ∧ ∀ w ∈ l, Spec.IsWord w ∧ hv.lookup w ≠ some U.length) →
        (t.scorer fb).scoreText (slice (textOf text)) d one (textOf text) =
          some ((Spec.Arpa.ofData data (Spec.unkProb Spec.unkText default (data.getD 0 []) unk) qp qb).corpus (text.map (·.map (Spec.takenFor hv U)))) := by
  obtain ⟨ps, bs, e1, e2, e3⟩ := Quant.codebooks_ok hsort negInf h.arpa.order_min hq
  obtain ⟨t, f1, f2, f3⟩ := TrieProb.build_ok fb negInf unkBytes default unk h hb hh hj hbits e1 e2
  have hd0 : data[0]? = some (data.getD 0 []) := by
    rw [List.getD_eq_getElem?_getD, List.getElem?_eq_getElem (by have := h.arpa.order_min; omega)]; rfl
  refine ⟨t, _, _, by rw [TrieProb.buildArpa_eq lead gap hg fb sort negInf default unk ro pb bb hd hwords h.arpa, f1], e3,
    fun w hw => Collisions.self hb hw, ?_⟩
  intro text d one hV
  rw [← unkBytes_eq, ← findUnk_spec unkBytes default _ unk (h.arpa.distinct _ (List.mem_of_getElem? hd0)), ← f3 _ hd0]
  have I := TrieProb.implements_all hfb h f2 e2
  have hvoc := Collisions.prob_voc f1
  subst hvoc
  have hfirst : ∀ w, (t.scorer fb).first (Spec.takenFor t.voc.h U w) = (t.scorer fb).first w := by
    intro w
    show (t.voc.lookupPair _).bind _ = (t.voc.lookupPair w).bind _
    rw [Collisions.dv_same]
  obtain ⟨rs, t', g1, g2, rfl, g4⟩ := C31_text_lines text (fun l hl => ⟨(hV l hl).1, fun w hw => ((hV l hl).2 w hw).1⟩)
  rw [Scorer.scoreText_eq _ _ d one g1]
  have hm : (lineRanges 0 text).map (·.map (slice (textOf text))) = text := g2
  rw [hm, ← Collisions.scoreCorpus_same hfirst, Scorer.scoreCorpus_eq I (ArpaData.wellFormed data _ _ _ h.arpa) d one _ (by
    intro ws hws g hg w hw
    obtain ⟨l, hl, rfl⟩ := List.mem_map.1 hws
    have := occurs_mem hg w hw
    obtain ⟨v, hv, rfl⟩ := List.mem_map.1 this
    exact Collisions.recognised ((hV l hl).2 v hv).2), Option.map_some, g4]
  congr 1
  unfold Spec.Arpa.corpus
  simp only [List.map_map, Totals.mk.injEq, true_and, and_true]
  congr 1
  apply List.map_congr_left
  intro l _
  simp

end

/-- **C66** (hash count models).  An n-gram (any bytes with `k` spaces) that the table of its order takes for a listed one gets the count of that one; a
listed n-gram is taken for itself. -/
theorem C66_mph_counts_with_collisions {B : Nat} {L : SortLib} (hL : L.Valid) {mem extra : Nat} {files : List (List (List (List Byte) × Nat))}
    (h : Spec.CountLists mem files) (hB : B = 64 ∨ (B = 32 ∧ ∀ f ∈ files, f.length < 2 ^ 26)) (hn : ∀ f ∈ files, f.length < 2 ^ 57)
    {hs : Nat → Mphf (List Byte) B}
    (hb : ∀ (k : Nat) (f : List (List (List Byte) × Nat)), files[k]? = some f → (hs k).BuiltFrom (f.map fun r => joinSp r.1)) :
    ∃ m, MphCount.build L mem extra hs (Spec.lines files) = some (.ok m) ∧
      ∀ (k : Nat) (f : List (List (List Byte) × Nat)), files[k]? = some f →
        (∀ r ∈ f, Spec.takenFor (hs k) (f.map fun r => joinSp r.1) (joinSp r.1) = joinSp r.1) ∧
        ∀ (query : List Byte) (gram : List (List Byte)) (count : Nat), query.count sp = k →
          Spec.takenFor (hs k) (f.map fun r => joinSp r.1) query = joinSp gram → (gram, count) ∈ f → m.lookup query = some count := by
  obtain ⟨m, e1, e2⟩ := C26_stored_gram_returns_its_count (extra := extra) hL h hB hn hb
  refine ⟨m, e1, fun k f hf => ⟨fun r hr => Collisions.self (hb k f hf) (List.mem_map.2 ⟨r, hr, rfl⟩), ?_⟩⟩
  intro query gram count hk ht hg
  have hfm := List.mem_of_getElem? hf
  have hgl : gram.length = k + 1 := h.len k f hf _ hg
  have hcount : (joinSp gram).count sp = k := by
    have := count_joinSp (ws := gram) (fun w hw => (h.words _ hfm _ hg w hw).1) (by rintro rfl; simp at hgl)
    omega
  rw [← e2 f hfm gram count hg]
  have htab : ∀ t, m.tables[k]? = some t → t.h = hs k := by
    intro t htk
    have e := e1
    unfold MphCount.build at e
    split at e
    · cases e
    obtain ⟨colls, -, e⟩ := Res.bind_ok_iff e
    obtain ⟨ts, e3, e⟩ := Res.bind_ok_iff e
    cases e
    obtain ⟨⟨p, k'⟩, h1, h2⟩ := Res.mapM_get? e3 k t htk
    rw [List.getElem?_zipIdx, Nat.zero_add] at h1
    obtain ⟨q, -, h4⟩ := Option.map_eq_some_iff.1 h1
    obtain ⟨-, rfl⟩ := Prod.mk.inj h4
    unfold MphCount.buildTable at h2
    obtain ⟨pool, -, h2⟩ := Res.bind_ok_iff h2
    exact (Sizes.tableOf_facts (by omega) (Res.lift_ok_iff h2)).1
  unfold MphCount.lookup
  simp only [hk, hcount]
  cases htk : m.tables[k]? with
  | none => rfl
  | some t =>
    rw [Option.bind_some, Option.bind_some, ← ht, ← htab t htk, Collisions.sv_same]

/-! Non-vacuity: a hash function over three keys that gives every other word the hashes of the first key. -/
namespace CollisionsExample

def hasher (i : Nat) : BitVec 64 × BitVec 64 × BitVec 64 := [(0, 0, 0), (1, 0, 0), (1, 1, 0)].getD i (0, 0, 0)

def mphf {K : Type} [DecidableEq K] (keys : List K) : Mphf K 64 :=
  { n := 3, domain := 2, hasher := fun k => hasher (keys.idxOf k), bv := [0, 1, 0, 1, 2, 0] }

theorem map_idxOf {K : Type} [DecidableEq K] {keys : List K} (hd : keys.Nodup) {α : Type} (f : Nat → α) :
    keys.map (fun k => f (keys.idxOf k)) = (List.range keys.length).map f := by
  apply List.ext_getElem
  · simp
  · intro i h1 h2
    have hi : i < keys.length := by simpa using h1
    simp only [List.getElem_map, List.getElem_range]
    rw [hd.idxOf_getElem i hi]

theorem built {K : Type} [DecidableEq K] {keys : List K} (hl : keys.length = 3) (hd : keys.Nodup) : (mphf keys).BuiltFrom keys := by
  refine ⟨[(0, 2, 4), (1, 2, 4), (1, 3, 4)], TextExample.order3, by rw [hl]; rfl, ?_, ⟨⟨_, List.Perm.refl _, ?_⟩, by decide⟩, ?_⟩
  · show keys.map (fun k => Mphf.nodes 2 (hasher (keys.idxOf k))) = _
    rw [map_idxOf hd fun i => Mphf.nodes 2 (hasher i), hl]; decide
  · unfold TextExample.order3 Mphf.Orients
    refine List.Forall₂.cons ?_ (List.Forall₂.cons ?_ (List.Forall₂.cons ?_ List.Forall₂.nil)) <;> decide
  · have h : Mphf.assign TextExample.order3 (List.replicate 6 0) = some [0, 1, 0, 1, 2, 0] := by decide
    unfold Mphf.build
    rw [hl]
    simp only [mphf, h]
    rfl

/-- An unknown word is taken for the first key. -/
theorem taken : Spec.takenFor (mphf [0, 1, 2]) [0, 1, 2] 7 = 0 := by decide +kernel

/-- In a count trie over the words 0, 1, 2 (remapping order 2) the query "7 2 1" with the unknown word 7 gets the count of "0 2 1"; "7 0" is not found. -/
example : ∃ t, TrieCount.build exLib (mphf [0, 1, 2]) (GramsImpl.fastEF fun _ => FastEF.exMphf) RanksImpl.ic 2 TrieCountExample.files4 = some (.ok t) ∧
    t.lookup [7, 2, 1] = some 3 ∧ t.lookup [7, 0] = some NF := by
  obtain ⟨t, e1, -, e3⟩ := C66_trie_counts_with_collisions exLib_valid (TrieCountExample.files4_ok 2 (by omega)) (built rfl (by decide)) TrieCountExample.hashes4 .ic (by simp)
  have hm : ∃ f ∈ TrieCountExample.files4, ([0, 2, 1], 3) ∈ f := by decide
  obtain ⟨f, hf, hm⟩ := hm
  refine ⟨t, e1, (e3 [7, 2, 1] [0, 2, 1] (by decide +kernel)).1 f hf _ hm, (e3 [7, 0] [0, 0] (by decide +kernel)).2 (by simp) (by decide) (by decide +kernel) ?_ ?_ ?_⟩
  · rintro ⟨f, hf, c, hm⟩
    simp [TrieCountExample.files4] at hf
    rcases hf with rfl | rfl | rfl | rfl <;> simp at hm
  · intro j h1 h2 _
    obtain rfl : j = 1 := by simp at h2; omega
    exact ⟨2, _, List.mem_of_getElem? (i := 1) rfl, 7, by simp⟩
  · intro _ i h1 h2
    simp at h2; omega

open FilesExample TrieProbExample in
/-- A backoff trie: a text with unknown words. -/
example : ∃ t, TrieProb.buildArpa strtod fbQ sortQ (-1000) (-100) (mphf [MphProbExample.w 0, MphProbExample.w 1, MphProbExample.w 2])
      (GramsImpl.fastEF fun _ => FastEF.exMphf) (RanksImpl.cv fun _ => [0#64]) 1 (-100) 2 2 3 (Spec.arpaText 0 0 sections [nl]) = some (.ok t) ∧
    ∃ tot, (t.scorer fbQ).scoreText (slice (textOf [[MphProbExample.w 5, MphProbExample.w 1]])) 0 0 (textOf [[MphProbExample.w 5, MphProbExample.w 1]]) = some tot ∧
      (t.scorer fbQ).scoreText (slice (textOf [[MphProbExample.w 0, MphProbExample.w 1]])) 0 0 (textOf [[MphProbExample.w 0, MphProbExample.w 1]]) = some tot := by
  obtain ⟨t, qp, qb, e1, -, -, e⟩ := C66_trie_scores_with_collisions 0 0 good fbQ sortQ_ok (-1000) (-100) (-100) lists data_words
    MphProbExample.data_trie MphProbExample.data_input.quant (by decide) MphProbExample.data_input.floats
    (built (keys := [MphProbExample.w 0, MphProbExample.w 1, MphProbExample.w 2]) rfl (by decide)) MphProbExample.data_hashes
    (junk := fun _ => [0#64]) (by simp)
  have h1 := e [[MphProbExample.w 5, MphProbExample.w 1]] 0 0 (by
    intro l hl
    simp at hl; subst hl
    refine ⟨by simp, fun w hw => ?_⟩
    simp at hw
    rcases hw with rfl | rfl
    · exact ⟨MphProbExample.w_word _ (by decide), by decide +kernel⟩
    · exact ⟨MphProbExample.w_word _ (by decide), by decide +kernel⟩)
  have h2 := e [[MphProbExample.w 0, MphProbExample.w 1]] 0 0 (by
    intro l hl
    simp at hl; subst hl
    refine ⟨by simp, fun w hw => ?_⟩
    simp at hw
    rcases hw with rfl | rfl
    · exact ⟨MphProbExample.w_word _ (by decide), by decide +kernel⟩
    · exact ⟨MphProbExample.w_word _ (by decide), by decide +kernel⟩)
  have h3 : ([[MphProbExample.w 5, MphProbExample.w 1]] : List (List (List Byte))).map (·.map (Spec.takenFor (mphf [MphProbExample.w 0, MphProbExample.w 1, MphProbExample.w 2])
      [MphProbExample.w 0, MphProbExample.w 1, MphProbExample.w 2])) = [[MphProbExample.w 0, MphProbExample.w 1]] := by decide +kernel
  have h4 : ([[MphProbExample.w 0, MphProbExample.w 1]] : List (List (List Byte))).map (·.map (Spec.takenFor (mphf [MphProbExample.w 0, MphProbExample.w 1, MphProbExample.w 2])
      [MphProbExample.w 0, MphProbExample.w 1, MphProbExample.w 2])) = [[MphProbExample.w 0, MphProbExample.w 1]] := by decide +kernel
  rw [h3] at h1
  rw [h4] at h2
  exact ⟨t, e1, _, h1, h2⟩

/-- The hash functions of a hash count model. -/
def hs (k : Nat) : Mphf (List Byte) 64 := mphf ((MphCountExample.files.getD k []).map fun r => joinSp r.1)

/-- A hash count model: "c c" is not listed, and gets the count of "a b". -/
example : ∃ m, MphCount.build exLib 100 0 hs (Spec.lines MphCountExample.files) = some (.ok m) ∧ m.lookup (joinSp [MphCountExample.w 2, MphCountExample.w 2]) = some 3 := by
  obtain ⟨m, e1, e2⟩ := C66_mph_counts_with_collisions (B := 64) (hs := hs) (extra := 0) exLib_valid MphCountExample.files_ok (.inl rfl)
    (by intro f hf; simp [MphCountExample.files] at hf; rcases hf with rfl | rfl <;> simp) (by
      intro k f h
      have hf : MphCountExample.files.getD k [] = f := by rw [List.getD_eq_getElem?_getD, h]; rfl
      unfold hs
      rw [hf]
      rcases k with _ | _ | k
      · simp [MphCountExample.files] at h; subst h; exact built rfl (by decide)
      · simp [MphCountExample.files] at h; subst h; exact built rfl (by decide)
      · simp [MphCountExample.files] at h)
  exact ⟨m, e1, (e2 1 _ rfl).2 _ [MphCountExample.w 0, MphCountExample.w 1] 3 (by decide) (by decide +kernel) (by simp)⟩

end CollisionsExample


namespace Collisions

/-- Multiplication by 31 has an inverse in words of any length. -/
theorem inv31 (B : Nat) : ∃ v : BitVec B, v * BitVec.ofNat B 31 = 1#B := by
  have hc : Nat.Coprime 31 (2 ^ B) := Nat.Coprime.pow_right B (by decide)
  rcases Nat.eq_zero_or_pos B with rfl | hB
  · exact ⟨0#0, Subsingleton.elim _ _⟩
  · obtain ⟨v, -, hv⟩ := Nat.exists_mul_mod_eq_one_of_coprime hc (Nat.one_lt_two_pow (by omega))
    refine ⟨BitVec.ofNat B v, ?_⟩
    apply BitVec.eq_of_toNat_eq
    rw [BitVec.toNat_mul, BitVec.toNat_ofNat, BitVec.toNat_ofNat, BitVec.toNat_ofNat, ← Nat.mul_mod, Nat.mul_comm, hv,
      Nat.mod_eq_of_lt (Nat.one_lt_two_pow (by omega))]

end Collisions

/-- Specification: how many of the words of `B` bits satisfy `P` — exactly one. -/
def Spec.ExactlyOne {B : Nat} (P : BitVec B → Prop) : Prop := ∃ x, P x ∧ ∀ y, P y → y = x

/-- **C66.** The hash key of a word or n-gram depends on each of its three hashes, as evenly as possible: whatever key is asked for and whatever two
of the hashes are, exactly one of the `2^B` values of the third hash gives that key.  (So a word that is not in the model is taken for the one in its
slot for one in `2^B` values of each of its hashes.) -/
theorem C66_one_hash_in_2_to_the_B_collides (B : Nat) (key a b : BitVec B) :
    Spec.ExactlyOne (fun x => Mphf.mix (x, a, b) = key) ∧ Spec.ExactlyOne (fun x => Mphf.mix (a, x, b) = key) ∧
    Spec.ExactlyOne (fun x => Mphf.mix (a, b, x) = key) := by
  obtain ⟨v, hv⟩ := Collisions.inv31 B
  simp only [Mphf.mix]
  generalize BitVec.ofNat B 31 = m at *
  generalize BitVec.ofNat B 17 = s at *
  have cancel : ∀ x y : BitVec B, x * m = y ↔ x = y * v := by
    intro x y
    constructor
    · intro e
      rw [← e, BitVec.mul_assoc, BitVec.mul_comm m v, hv, BitVec.mul_one]
    · intro e
      rw [e, BitVec.mul_assoc, hv, BitVec.mul_one]
  have sub : ∀ x y z : BitVec B, x + y = z ↔ x = z - y := by
    intro x y z
    constructor
    · intro e; rw [← e, BitVec.add_sub_cancel]
    · intro e; rw [e, BitVec.sub_add_cancel]
  have sub' : ∀ x y z : BitVec B, y + x = z ↔ x = z - y := by
    intro x y z
    rw [BitVec.add_comm]; exact sub x y z
  refine ⟨⟨((key - b) * v - a) * v - s * m, ?_, ?_⟩, ⟨(key - b) * v - (s * m + a) * m, ?_, ?_⟩,
    ⟨key - ((s * m + a) * m + b) * m, ?_, ?_⟩⟩
  · beta_reduce; rw [sub, cancel, sub, cancel, sub']
  · intro y h; rwa [sub, cancel, sub, cancel, sub'] at h
  · beta_reduce; rw [sub, cancel, sub']
  · intro y h; rwa [sub, cancel, sub'] at h
  · beta_reduce; rw [sub']
  · intro y h; rwa [sub'] at h

/-- The key of `(1, 2, 3)` in 8 bits, and the one hash that gives it with 1 and 2. -/
example : Mphf.mix ((1 : BitVec 8), 2, 3) = 81 ∧ ∀ y : BitVec 8, Mphf.mix (1, 2, y) = 81 → y = 3 := by decide +kernel

end Tongrams
