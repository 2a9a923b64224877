import Verif.FromFiles

/-!
# Scoring texts given by their bytes: src/score.cpp and the Python module

The loops of `score_corpus` (score.cpp:14-83) and of the Python functions `lookup`, `score_sentence`, `score_corpus`
(tongrams.cpp:65-116), in which reading a word and scoring it alternate.
-/

set_option linter.unusedSectionVars false

namespace Tongrams

namespace Scorer
variable {K Wd F C : Type} [LogProb F]

/-- `while (!corpus.end_of_line()) { auto word = corpus.next_word(); ... }` with the scores added up (score.cpp:42-57).  `key` gives
the word that `score` sees: its bytes (tries) or where it is in memory (hash models).  Every call of `next_word` moves forward, so the
number of bytes bounds the number of rounds. -/
def textLine (S : Scorer K Wd F C) (key : ByteRange → K) (m : Mem) :
    Nat → TextLines → PState Wd F → F → F → Option (TextLines × PState Wd F × F × F)
  | 0, t, st, sum, oov => if t.eol then some (t, st, sum, oov) else none
  | n + 1, t, st, sum, oov => if t.eol then some (t, st, sum, oov) else
    (t.nextWord m).bind fun x => (S.score st (key x.1)).bind fun r =>
      textLine S key m n x.2 r.1 (sum + r.2.1) (if r.2.2 then oov + r.2.1 else oov)

/-- `while (!corpus.end_of_file()) { ... }` (score.cpp:35-66): the number of words is `corpus.num_words()`. -/
def textLoop (S : Scorer K Wd F C) (key : ByteRange → K) (m : Mem) :
    Nat → TextLines → PState Wd F → Totals F → Option (Totals F)
  | 0, t, _, tot => if t.pos = m.length then some { tot with tokens := t.words } else none
  | n + 1, t, st, tot => if t.pos = m.length then some { tot with tokens := t.words } else
    st.init.bind fun st =>
    (S.textLine key m m.length { t with eol := false } st 0 tot.onlyOOVs).bind fun r =>
      textLoop S key m n r.1 r.2.1 ⟨tot.oovs + r.2.1.oovs, tot.sentences + 1, 0, tot.total + r.2.2.1, r.2.2.2⟩

/-- `score_corpus<Model>` of the tool `score` (score.cpp:20-68) on the bytes `m` of the corpus file: what it prints (the perplexities are
`pow` of these). -/
def scoreText (S : Scorer K Wd F C) (key : ByteRange → K) (d : Wd) (one : F) (m : Mem) : Option (Totals F) :=
  (PState.new S.order d one).bind fun st => S.textLoop key m m.length TextLines.new st ⟨0, 0, 0, 0, 0⟩

/-- The inner loop of the Python `score_corpus` (tongrams.cpp:86-92): `is_OOV` is not used. -/
def pyLine (S : Scorer K Wd F C) (key : ByteRange → K) (m : Mem) :
    Nat → TextLines → PState Wd F → F → Option (TextLines × PState Wd F × F)
  | 0, t, st, sum => if t.eol then some (t, st, sum) else none
  | n + 1, t, st, sum => if t.eol then some (t, st, sum) else
    (t.nextWord m).bind fun x => (S.score st (key x.1)).bind fun r => pyLine S key m n x.2 r.1 (sum + r.2.1)

/-- The outer loop of the Python `score_corpus` (tongrams.cpp:82-94) and the pair it returns (95). -/
def pyLoop (S : Scorer K Wd F C) (key : ByteRange → K) (m : Mem) : Nat → TextLines → PState Wd F → F → Option (F × Nat)
  | 0, t, _, tot => if t.pos = m.length then some (tot, t.words) else none
  | n + 1, t, st, tot => if t.pos = m.length then some (tot, t.words) else
    st.init.bind fun st => (S.pyLine key m m.length { t with eol := false } st 0).bind fun r => pyLoop S key m n r.1 r.2.1 (tot + r.2.2)

/-- `ProbModel.score_corpus(filename)` (tongrams.cpp:77-96): the total and the number of words. -/
def pyScoreCorpus (S : Scorer K Wd F C) (key : ByteRange → K) (d : Wd) (one : F) (m : Mem) : Option (F × Nat) :=
  (PState.new S.order d one).bind fun st => S.pyLoop key m m.length TextLines.new st 0

/-- The loop of the Python `score_sentence` (tongrams.cpp:109-115); each round moves forward. -/
def pySentenceLoop (S : Scorer K Wd F C) (key : ByteRange → K) (m : Mem) : Nat → FwdIter → PState Wd F → F → Nat → Option (F × Nat)
  | 0, it, _, sum, words => if it.hasNext then none else some (sum, words)
  | n + 1, it, st, sum, words => if it.hasNext then
      (it.next m).bind fun x => (S.score st (key x.1)).bind fun r => pySentenceLoop S key m n x.2 r.1 (sum + r.2.1) (words + 1)
    else some (sum, words)

/-- `ProbModel.score_sentence(sentence, size)` (tongrams.cpp:98-117); `m` is the memory from the first byte of the string on. -/
def pyScoreSentence (S : Scorer K Wd F C) (key : ByteRange → K) (d : Wd) (one : F) (m : Mem) (size : Nat) : Option (F × Nat) :=
  (PState.new S.order d one).bind fun st => st.init.bind fun st =>
    S.pySentenceLoop key m size (FwdIter.init (0, size)) st 0 0

end Scorer

/-- The Python module is compiled for one class of count tries, `ef_trie_IC_ranks_count_lm` (tongrams.cpp:9), whose mapper is `identity_mapper`
(lm_types.hpp:44-45): whatever remapping order is read from the file, ids of words are not remapped. -/
def TrieCount.python {K : Type} (t : TrieCount K) : TrieCount K := { t with ro := 0 }

/-- The class of the Python module for backoff tries, `ef_trie_prob_lm` (tongrams.cpp:10), has `identity_mapper` too (lm_types.hpp:85-86). -/
def TrieProb.python {K F : Type} (t : TrieProb K F) : TrieProb K F := { t with ro := 0 }

/-- `CountModel.lookup(ngram)` (tongrams.cpp:65-75): 0 for `not_found`. -/
def TrieCount.pyLookup (t : TrieCount (List Byte)) (q : List Byte) : Option Nat :=
  (t.python.lookupString q).map fun count => if count = NF then 0 else count

theorem TrieCount.build_ro {K : Type} [DecidableEq K] {L : SortLib} {hv : Mphf K 64} {G : GramsImpl} {R : RanksImpl} {ro : Nat}
    {files : List (List (List K × Nat))} {t : TrieCount K} (e : TrieCount.build L hv G R ro files = some (.ok t)) : t.ro = ro := by
  unfold TrieCount.build at e
  split at e
  · cases e
  · obtain ⟨_, _, e⟩ := Res.bind_ok_iff e
    obtain ⟨_, _, e⟩ := Res.bind_ok_iff e
    obtain ⟨_, _, e⟩ := Res.bind_ok_iff e
    obtain ⟨_, _, e⟩ := Res.bind_ok_iff e
    obtain ⟨_, _, e⟩ := Res.bind_ok_iff e
    obtain ⟨_, _, e⟩ := Res.bind_ok_iff e
    obtain ⟨_, _, e⟩ := Res.bind_ok_iff e
    cases e; rfl

theorem TrieProb.build_ro {K F : Type} [DecidableEq K] [FloatArith F] {fb : FloatBits F} {sort : List F → List F} {negInf default : F} {unkWord : K}
    {hv : Mphf K 64} {G : GramsImpl} {R : RanksImpl} {ro pb bb : Nat} {unk : F} {data : List (List (List K × F × F))} {t : TrieProb K F}
    (e : TrieProb.build fb sort negInf unkWord default hv G R ro unk pb bb data = some (.ok t)) : t.ro = ro := by
  unfold TrieProb.build at e
  split at e
  · cases e
  · obtain ⟨_, _, e⟩ := Res.bind_ok_iff e
    obtain ⟨_, _, e⟩ := Res.bind_ok_iff e
    obtain ⟨_, _, e⟩ := Res.bind_ok_iff e
    obtain ⟨_, _, e⟩ := Res.bind_ok_iff e
    obtain ⟨_, _, e⟩ := Res.bind_ok_iff e
    cases e; rfl

theorem TrieCount.python_eq {K : Type} {t : TrieCount K} (h : t.ro = 0) : t.python = t := by
  unfold TrieCount.python; rw [← h]

theorem TrieProb.python_eq {K F : Type} {t : TrieProb K F} (h : t.ro = 0) : t.python = t := by
  unfold TrieProb.python; rw [← h]

theorem Spec.ProbFiles.unmapped {K F : Type} [DecidableEq K] {U : List K} {data : List (List (List K × F × F))} {ro : Nat} (h : Spec.ProbFiles U data ro) :
    Spec.ProbFiles U data 0 :=
  ⟨h.arpa, ⟨h.trie.nodup, h.trie.unigrams, h.trie.nonempty, h.trie.len, h.trie.words, h.trie.sorted, h.trie.prefix_closed, fun h => absurd rfl h⟩, by omega, h.size⟩

/-- Up to `ro + 1` words nothing is remapped, so the identity mapper finds the same ids. -/
theorem mapQueryLoop_short {K : Type} (voc : K → Option Nat) (arrs : List SortedArray) {ro : Nat} (hro : ro ≤ 2) : ∀ (ws : List K) (order : Nat) (raw wids : List Nat),
    order + ws.length ≤ ro + 1 → TrieCount.mapQueryLoop voc arrs 0 ws order raw wids = TrieCount.mapQueryLoop voc arrs ro ws order raw wids
  | [], _, _, _, _ => by simp only [TrieCount.mapQueryLoop]
  | w :: ws, order, raw, wids, h => by
    have hm : maxOrder = 8 := rfl
    simp only [List.length_cons] at h
    have h1 : ¬ (ro ≠ 0 ∧ maxOrder ≤ order) := by omega
    have h2 : ro = 0 ∨ order < 2 ∨ (order = 2 ∧ ro = 2) := by omega
    simp only [TrieCount.mapQueryLoop, if_neg h1, if_pos h2, ne_eq, not_true_eq_false, false_and, if_false, true_or, if_true,
      mapQueryLoop_short voc arrs hro ws (order + 1) _ _ (by omega)]

theorem TrieCount.python_short {K : Type} {t : TrieCount K} (hro : t.ro ≤ 2) {ws : List K} (h : t.ro = 0 ∨ ws.length ≤ t.ro + 1) :
    t.python.lookup ws = t.lookup ws := by
  rcases h with h | h
  · rw [TrieCount.python_eq h]
  · unfold TrieCount.lookup
    show (mapQueryLoop t.voc t.arrs 0 ws 0 [] []).bind _ = _
    rw [mapQueryLoop_short t.voc t.arrs hro ws 0 [] [] (by omega)]
    rfl

/-! ## Reading then scoring is the same as alternating -/

namespace Scorer
variable {K Wd F C : Type} [LogProb F]

theorem textLine_eq (S : Scorer K Wd F C) (key : ByteRange → K) (m : Mem) (n : Nat) : ∀ (t : TextLines) (st : PState Wd F) (sum oov : F)
    {rs : List ByteRange} {t' : TextLines}, t.line m n = some (rs, t') →
    S.textLine key m n t st sum oov = (S.lineLoop (rs.map key) st sum oov).map fun r => (t', r.1, r.2.1, r.2.2) := by
  induction n with
  | zero =>
    intro t st sum oov rs t' h
    rw [TextLines.line] at h
    rw [textLine]
    split at h
    · rename_i he; cases h; rw [if_pos he]; rfl
    · cases h
  | succ n ih =>
    intro t st sum oov rs t' h
    rw [TextLines.line] at h
    rw [textLine]
    split at h
    · rename_i he; cases h; rw [if_pos he]; rfl
    · rename_i he
      rw [if_neg he]
      obtain ⟨x, hx, h⟩ := Option.bind_eq_some_iff.1 h
      obtain ⟨y, hy, h⟩ := Option.map_eq_some_iff.1 h
      cases h
      rw [hx, Option.bind_some, List.map_cons, lineLoop]
      cases hs : S.score st (key x.1) with
      | none => rfl
      | some r =>
        obtain ⟨st1, p, o⟩ := r
        simp only [Option.bind_some, Option.bind_eq_bind]
        rw [ih _ _ _ _ hy]

theorem textLoop_eq (S : Scorer K Wd F C) (key : ByteRange → K) (m : Mem) (n : Nat) : ∀ (t : TextLines) (st : PState Wd F) (tot : Totals F)
    {rs : List (List ByteRange)} {t' : TextLines}, t.lines m n = some (rs, t') →
    S.textLoop key m n t st tot = (S.corpusLoop (rs.map (·.map key)) st tot).map fun r => { r.2 with tokens := t'.words } := by
  induction n with
  | zero =>
    intro t st tot rs t' h
    rw [TextLines.lines] at h
    rw [textLoop]
    split at h
    · rename_i he; cases h; rw [if_pos he]; rfl
    · cases h
  | succ n ih =>
    intro t st tot rs t' h
    rw [TextLines.lines] at h
    rw [textLoop]
    split at h
    · rename_i he; cases h; rw [if_pos he]; rfl
    · rename_i he
      rw [if_neg he]
      obtain ⟨x, hx, h⟩ := Option.bind_eq_some_iff.1 h
      obtain ⟨y, hy, h⟩ := Option.map_eq_some_iff.1 h
      cases h
      rw [List.map_cons, corpusLoop]
      cases hi : st.init with
      | none => rfl
      | some st0 =>
        simp only [Option.bind_some, Option.bind_eq_bind]
        rw [textLine_eq S key m _ _ _ _ _ hx]
        cases hl : S.lineLoop (x.1.map key) st0 0 tot.onlyOOVs with
        | none => rfl
        | some r =>
          obtain ⟨st1, sum, oov⟩ := r
          simp only [Option.bind_some, Option.map_some]
          rw [ih _ _ _ hy]
          have key' : ∀ (ls : List (List K)) (st : PState Wd F) (a b : Totals F), a.oovs = b.oovs → a.sentences = b.sentences →
              a.total = b.total → a.onlyOOVs = b.onlyOOVs →
              (S.corpusLoop ls st a).map (fun r => { r.2 with tokens := y.2.words }) =
              (S.corpusLoop ls st b).map (fun r => { r.2 with tokens := y.2.words }) := by
            intro ls
            induction ls with
            | nil =>
              intro st a b h1 h2 h3 h4
              obtain ⟨a1, a2, a3, a4, a5⟩ := a
              obtain ⟨b1, b2, b3, b4, b5⟩ := b
              simp only at h1 h2 h3 h4
              subst h1 h2 h3 h4
              rfl
            | cons l ls ih' =>
              intro st a b h1 h2 h3 h4
              rw [corpusLoop, corpusLoop]
              cases st.init with
              | none => rfl
              | some st0 =>
                simp only [Option.bind_some, Option.bind_eq_bind]
                rw [h4]
                cases S.lineLoop l st0 0 b.onlyOOVs with
                | none => rfl
                | some r =>
                  simp only [Option.bind_some]
                  exact ih' _ _ _ (by simp only [h1]) (by simp only [h2]) (by simp only [h3]) rfl
          exact key' _ _ _ _ rfl rfl rfl rfl

theorem scoreText_eq (S : Scorer K Wd F C) (key : ByteRange → K) (d : Wd) (one : F) {m : Mem} {rs : List (List ByteRange)} {t' : TextLines}
    (h : TextLines.all m = some (rs, t')) :
    S.scoreText key d one m = (S.scoreCorpus d one (rs.map (·.map key))).map fun r => { r with tokens := t'.words } := by
  unfold scoreText scoreCorpus
  cases PState.new S.order d one with
  | none => rfl
  | some st =>
    simp only [Option.bind_some, Option.bind_eq_bind]
    rw [textLoop_eq S key m _ _ _ _ h]
    cases S.corpusLoop (rs.map (·.map key)) st ⟨0, 0, 0, 0, 0⟩ <;> rfl

theorem pyLine_eq (S : Scorer K Wd F C) (key : ByteRange → K) (m : Mem) (n : Nat) : ∀ (t : TextLines) (st : PState Wd F) (sum oov : F),
    S.pyLine key m n t st sum = (S.textLine key m n t st sum oov).map fun r => (r.1, r.2.1, r.2.2.1) := by
  induction n with
  | zero => intro t st sum oov; rw [pyLine, textLine]; split <;> rfl
  | succ n ih =>
    intro t st sum oov
    rw [pyLine, textLine]
    split
    · rfl
    · cases t.nextWord m with
      | none => rfl
      | some x =>
        simp only [Option.bind_some]
        cases S.score st (key x.1) with
        | none => rfl
        | some r =>
          simp only [Option.bind_some]
          exact ih _ _ _ _

theorem pyLoop_eq (S : Scorer K Wd F C) (key : ByteRange → K) (m : Mem) (n : Nat) : ∀ (t : TextLines) (st : PState Wd F) (tot : Totals F),
    S.pyLoop key m n t st tot.total = (S.textLoop key m n t st tot).map fun r => (r.total, r.tokens) := by
  induction n with
  | zero => intro t st tot; rw [pyLoop, textLoop]; split <;> rfl
  | succ n ih =>
    intro t st tot
    rw [pyLoop, textLoop]
    split
    · rfl
    · cases st.init with
      | none => rfl
      | some st =>
        simp only [Option.bind_some]
        rw [pyLine_eq S key m _ _ _ _ tot.onlyOOVs]
        cases S.textLine key m m.length { t with eol := false } st 0 tot.onlyOOVs with
        | none => rfl
        | some r =>
          simp only [Option.bind_some, Option.map_some]
          exact ih _ _ ⟨_, _, 0, tot.total + r.2.2.1, _⟩

theorem pyScoreCorpus_eq (S : Scorer K Wd F C) (key : ByteRange → K) (d : Wd) (one : F) (m : Mem) :
    S.pyScoreCorpus key d one m = (S.scoreText key d one m).map fun r => (r.total, r.tokens) := by
  unfold pyScoreCorpus scoreText
  cases PState.new S.order d one with
  | none => rfl
  | some st => exact pyLoop_eq S key m _ _ _ ⟨0, 0, 0, 0, 0⟩

theorem pySentenceLoop_eq (S : Scorer K Wd F C) (key : ByteRange → K) (m : Mem) (n : Nat) : ∀ (it : FwdIter) (st : PState Wd F) (sum : F) (words : Nat)
    {rs : List ByteRange}, it.all m n = some rs →
    S.pySentenceLoop key m n it st sum words = (S.scoreWords (rs.map key) st).map fun r => ((r.2.map (·.1)).foldl (· + ·) sum, words + rs.length) := by
  induction n with
  | zero =>
    intro it st sum words rs h
    rw [FwdIter.all] at h
    rw [pySentenceLoop]
    split at h
    · cases h
    · rename_i he; cases h; rw [if_neg he]; rfl
  | succ n ih =>
    intro it st sum words rs h
    rw [FwdIter.all] at h
    rw [pySentenceLoop]
    split at h
    · rename_i he
      rw [if_pos he]
      obtain ⟨x, hx, h⟩ := Option.bind_eq_some_iff.1 h
      obtain ⟨y, hy, rfl⟩ := Option.map_eq_some_iff.1 h
      rw [hx, Option.bind_some, List.map_cons, scoreWords]
      cases S.score st (key x.1) with
      | none => rfl
      | some r =>
        obtain ⟨st1, p, o⟩ := r
        simp only [Option.bind_some, Option.bind_eq_bind]
        rw [ih _ _ _ _ hy]
        cases S.scoreWords (y.map key) st1 with
        | none => rfl
        | some q =>
          obtain ⟨st2, ps⟩ := q
          simp only [Option.map_some, Option.bind_some, List.map_cons, List.foldl_cons, List.length_cons]
          rw [show words + 1 + y.length = words + (y.length + 1) by omega]
    · rename_i he; cases h; rw [if_neg he]; rfl

theorem comap_corpus {K' : Type} (A : Spec.Arpa K F) (f : K' → K) (text : List (List K')) :
    (A.comap f).corpus text = A.corpus (text.map (·.map f)) := by
  unfold Spec.Arpa.corpus
  have e1 : (A.comap f).sentenceScore = A.sentenceScore ∘ (List.map f) := by
    funext ws; unfold Spec.Arpa.sentenceScore; rw [Spec.Arpa.comap_wordScores]; rfl
  have e2 : (A.comap f).wordScores = A.wordScores ∘ (List.map f) := by
    funext ws; exact Spec.Arpa.comap_wordScores A f ws
  have e3 : ∀ ws : List K', ws.countP (fun w => ((A.comap f).entry [w]).isNone) = (ws.map f).countP (fun w => (A.entry [w]).isNone) := by
    intro ws; rw [List.countP_map]; rfl
  rw [Totals.mk.injEq]
  refine ⟨?_, by simp, ?_, ?_, ?_⟩
  · rw [List.map_map]; congr 1; apply List.map_congr_left; intro ws _; exact e3 ws
  · rw [List.map_map]; congr 1; apply List.map_congr_left; intro ws _; simp
  · rw [List.map_map, e1]
  · rw [List.flatMap_map, e2]; rfl

/-- The tool and the Python functions on a scorer that implements an ARPA model. -/
theorem text_spec {S : Scorer K Wd F C} {A : Spec.Arpa (List Byte) F} {V : List K → Prop} {wd : K → Wd} {key : ByteRange → K} {m : Mem} {f : K → List Byte}
    (hkey : ∀ r, f (key r) = slice m r) (I : Implements S (A.comap f) V wd) (wf : A.WellFormed) (d : Wd) (one : F) :
    (∀ (text : List (List (List Byte))), m = textOf text → (∀ l ∈ text, l ≠ [] ∧ ∀ w ∈ l, Spec.IsWord w) →
      (∀ l ∈ (lineRanges 0 text), ∀ g, Occurs (l.map key) g → V g) →
      S.scoreText key d one m = some (A.corpus text) ∧
      S.pyScoreCorpus key d one m = some ((A.corpus text).total, (A.corpus text).tokens)) ∧
    (∀ (sentence : List (List Byte)), At m 0 (joinSp sentence) → (∀ w ∈ sentence, Spec.IsWord w ∧ w ≠ []) →
      (∀ g, Occurs ((wordRanges 0 sentence).map key) g → V g) →
      S.pyScoreSentence key d one m (joinSp sentence).length = some (A.sentenceScore sentence, sentence.length)) := by
  have wf' := Spec.Arpa.comap_wellFormed wf f
  constructor
  · rintro text rfl hw hV
    obtain ⟨rs, t, h1, h2, rfl, h4⟩ := C31_text_lines text hw
    have hmap : ((lineRanges 0 text).map (·.map key)).map (·.map f) = text := by
      conv_rhs => rw [← h2]
      rw [List.map_map]
      apply List.map_congr_left
      intro l _
      simp only [Function.comp_apply, List.map_map]
      apply List.map_congr_left
      intro r _
      exact hkey r
    have hs : S.scoreText key d one (textOf text) = some (A.corpus text) := by
      rw [scoreText_eq S key d one h1, scoreCorpus_eq I wf' d one _ (by
        intro ws hws g hg
        obtain ⟨l, hl, rfl⟩ := List.mem_map.1 hws
        exact hV l hl g hg), comap_corpus, hmap, h4]
      rfl
    exact ⟨hs, by rw [pyScoreCorpus_eq, hs]; rfl⟩
  · intro sentence hat hw hV
    unfold pyScoreSentence
    obtain ⟨st, e, inv, -⟩ := new_inv (A := A.comap f) wf' wd d one
    obtain ⟨st0, e0, inv0, -⟩ := init_inv wf' inv
    rw [I.order, e, Option.bind_some, e0, Option.bind_some]
    have hall : (FwdIter.init (0, (joinSp sentence).length)).all m (joinSp sentence).length = some (wordRanges 0 sentence) := by
      have hl : sentence.length ≤ (joinSp sentence).length := by
        clear hat hV inv0 inv
        induction sentence with
        | nil => simp
        | cons w ws ih =>
          have h1 := (hw w List.mem_cons_self).2
          have h2 := ih (fun w hm => hw w (List.mem_cons_of_mem _ hm))
          have h3 := List.length_pos_iff.2 h1
          cases ws with
          | nil => simp [joinSp] at *; omega
          | cons v vs => simp only [joinSp, List.length_append, List.length_cons] at *; omega
      exact FwdIter.all_words 0 (by simpa using hat) hw (by simp) _ hl
    rw [pySentenceLoop_eq S key m _ _ _ _ _ hall]
    obtain ⟨st1, ps, e1, -, l1, -, g1⟩ := sentence_spec I wf' ((wordRanges 0 sentence).map key) inv0 hV
    obtain rfl := scores_unique l1 g1
    rw [e1, Option.map_some, Spec.Arpa.comap_wordScores]
    have hm : ((wordRanges 0 sentence).map key).map f = sentence := by
      rw [List.map_map]
      conv_rhs => rw [← slices_wordRanges hat]
      apply List.map_congr_left; intro r _; exact hkey r
    have hl : (wordRanges 0 sentence).length = sentence.length := by
      conv_rhs => rw [← hm]
      simp
    rw [hm, hl, Nat.zero_add, List.foldl_map]
    rfl

end Scorer

/-! ## Properties -/

section
variable {F : Type} [FloatArith F]

theorem Spec.Arpa.comap_id {K : Type} (A : Spec.Arpa K F) : A.comap id = A := by
  unfold Spec.Arpa.comap; simp

/-- **C46** (tries).  From the bytes of an ARPA file and the bytes of a corpus: the tool `score` reports the totals of the corpus under the (quantised)
ARPA model of the file — tokens, sentences, unknown words, total log-probability (sentence by sentence, words added in order, then sentences in order) and
the part of the unknown words; each sentence contributes what it would alone. -/
theorem C46_score_tool_trie {strtod : List Byte → F × Nat} (lead gap : Nat) {sections : List (List (Spec.ArpaLine F) × Nat)} {tail : List Byte}
    (hg : Spec.GoodArpa strtod sections tail) (fb : FloatBits F) {sort : List F → List F} (hsort : ∀ l, (sort l).Perm l ∧ (sort l).Pairwise (· ≤ ·))
    (negInf default unk : F) {U : List (List Byte)} {data : List (List (List (List Byte) × F × F))} {ro pb bb : Nat}
    (hd : Spec.ArpaLists sections data) (hwords : ∀ f ∈ data, ∀ r ∈ f, ∀ w ∈ r.1, w ≠ [] ∧ sp ∉ w)
    (h : Spec.ProbFiles U data ro) (hq : Spec.Quantisable data pb bb) (hbits : pb + bb ≤ 58)
    (hfb : ∀ f0, data[0]? = some f0 → ∀ r ∈ f0, fb.dec (fb.enc r.2.1) = r.2.1 ∧ fb.dec (fb.enc r.2.2) = r.2.2)
    {hv : Mphf (List Byte) 64} (hb : hv.BuiltFrom U) {hr : Nat → Mphf Nat 64} (hh : Spec.RangeHashes hr (TrieProb.asCounts data))
    {junk : Nat → List W} (hj : ∀ k, junk k ≠ []) :
    ∃ t qp qb, TrieProb.buildArpa strtod fb sort negInf default hv (GramsImpl.fastEF hr) (RanksImpl.cv junk) ro unk pb bb sections.length
        (Spec.arpaText lead gap sections tail) = some (.ok t) ∧
      Spec.Quantised data pb bb qp qb ∧
      ∀ (text : List (List (List Byte))) (d : Nat) (one : F), (∀ l ∈ text, l ≠ [] ∧ ∀ w ∈ l, Spec.IsWord w ∧ Spec.Recognised hv U w) →
        (t.scorer fb).scoreText (slice (textOf text)) d one (textOf text) =
          some ((Spec.Arpa.ofData data (Spec.unkProb Spec.unkText default (data.getD 0 []) unk) qp qb).corpus text) := by
  obtain ⟨ps, bs, e1, e2, e3⟩ := Quant.codebooks_ok hsort negInf h.arpa.order_min hq
  obtain ⟨t, f1, f2, f3⟩ := TrieProb.build_ok fb negInf unkBytes default unk h hb hh hj hbits e1 e2
  have hd0 : data[0]? = some (data.getD 0 []) := by
    rw [List.getD_eq_getElem?_getD, List.getElem?_eq_getElem (by have := h.arpa.order_min; omega)]; rfl
  refine ⟨t, _, _, by rw [TrieProb.buildArpa_eq lead gap hg fb sort negInf default unk ro pb bb hd hwords h.arpa, f1], e3, ?_⟩
  intro text d one hV
  rw [← unkBytes_eq, ← findUnk_spec unkBytes default _ unk (h.arpa.distinct _ (List.mem_of_getElem? hd0)), ← f3 _ hd0]
  have I := TrieProb.implements_all hfb h f2 e2
  rw [← Spec.Arpa.comap_id (Spec.Arpa.ofData data _ _ _)] at I
  have hat : At (textOf text) 0 (textOf text) := by unfold At; simp
  refine ((Scorer.text_spec (key := slice (textOf text)) (f := id) (fun _ => rfl) I (ArpaData.wellFormed data _ _ _ h.arpa) d one).1 text rfl
    (fun l hl => ⟨(hV l hl).1, fun w hw => ((hV l hl).2 w hw).1⟩) ?_).1
  intro l hl g hg w hw
  obtain ⟨i, hi⟩ := List.getElem?_of_mem hl
  obtain ⟨l', o, g1, rfl, g3⟩ := at_lines hat hi
  have := occurs_mem hg w hw
  rw [slices_wordRanges g3] at this
  exact ((hV l' (List.mem_of_getElem? g1)).2 w this).2

/-- **C46** (hash models). -/
theorem C46_score_tool_mph {B : Nat} {strtod : List Byte → F × Nat} (lead gap : Nat) {sections : List (List (Spec.ArpaLine F) × Nat)} {tail : List Byte}
    (hg : Spec.GoodArpa strtod sections tail) (fb : FloatBits F) {sort : List F → List F} (hsort : ∀ l, (sort l).Perm l ∧ (sort l).Pairwise (· ≤ ·))
    (negInf default unk : F) {mem pb bb : Nat} (extra : Nat) {hs : Nat → Mphf (List Byte) B} {data : List (List (List (List Byte) × F × F))}
    (hd : Spec.ArpaLists sections data) (h : Spec.MphProbInput fb mem pb bb hs data) :
    ∃ m qp qb, MphProb.buildArpa strtod fb sort negInf default unk mem extra hs pb bb sections.length (Spec.arpaText lead gap sections tail) = some (.ok m) ∧
      Spec.Quantised data pb bb qp qb ∧
      ∀ (text : List (List (List Byte))) (d : Nat) (one : F), (∀ l ∈ text, l ≠ [] ∧ ∀ w ∈ l, Spec.IsWord w) →
        (∀ l ∈ text, Spec.GramsRecognised hs data l) →
        (m.scorer fb (textOf text)).scoreText id d one (textOf text) =
          some ((Spec.Arpa.ofData data (Spec.unkProb Spec.unkText default (data.getD 0 []) unk) qp qb).corpus text) := by
  obtain ⟨ps, bs, hcb, hc, hq⟩ := Quant.codebooks_ok hsort negInf h.arpa.order_min h.quant
  obtain ⟨m, A, e1, rfl, wf, hI⟩ := MphProb.correct fb (sort := sort) negInf default unk extra h hcb hc
  refine ⟨m, _, _, by unfold MphProb.buildArpa; rw [arpaSections_ok lead gap hg hd, Res.bind_ok, e1], hq, fun text d one hw hrec => ?_⟩
  obtain ⟨I⟩ := hI (textOf text)
  have hat : At (textOf text) 0 (textOf text) := by unfold At; simp
  refine ((Scorer.text_spec (key := id) (f := slice (textOf text)) (fun _ => rfl) I wf d one).1 text rfl hw ?_).1
  intro l hl g hg
  rw [List.map_id] at hg
  obtain ⟨i, hi⟩ := List.getElem?_of_mem hl
  obtain ⟨l', o, g1, rfl, g3⟩ := at_lines hat hi
  have hl' := List.mem_of_getElem? g1
  exact occurs_isGram g3 (hw l' hl').2 (hrec l' hl') hg

/-- **C47** (Python, `ProbModel`).  On a trie built without remapping, `score_sentence(s, len(s))` returns the sum of the word scores of the sentence and its number of words, whatever
lies in memory after the string; `score_corpus(f)` returns the total of the corpus and its number of words. -/
theorem C47_python_scores {strtod : List Byte → F × Nat} (lead gap : Nat) {sections : List (List (Spec.ArpaLine F) × Nat)} {tail : List Byte}
    (hg : Spec.GoodArpa strtod sections tail) (fb : FloatBits F) {sort : List F → List F} (hsort : ∀ l, (sort l).Perm l ∧ (sort l).Pairwise (· ≤ ·))
    (negInf default unk : F) {U : List (List Byte)} {data : List (List (List (List Byte) × F × F))} {pb bb : Nat}
    (hd : Spec.ArpaLists sections data) (hwords : ∀ f ∈ data, ∀ r ∈ f, ∀ w ∈ r.1, w ≠ [] ∧ sp ∉ w)
    (h : Spec.ProbFiles U data 0) (hq : Spec.Quantisable data pb bb) (hbits : pb + bb ≤ 58)
    (hfb : ∀ f0, data[0]? = some f0 → ∀ r ∈ f0, fb.dec (fb.enc r.2.1) = r.2.1 ∧ fb.dec (fb.enc r.2.2) = r.2.2)
    {hv : Mphf (List Byte) 64} (hb : hv.BuiltFrom U) {hr : Nat → Mphf Nat 64} (hh : Spec.RangeHashes hr (TrieProb.asCounts data))
    {junk : Nat → List W} (hj : ∀ k, junk k ≠ []) :
    ∃ t qp qb, TrieProb.buildArpa strtod fb sort negInf default hv (GramsImpl.fastEF hr) (RanksImpl.cv junk) 0 unk pb bb sections.length
        (Spec.arpaText lead gap sections tail) = some (.ok t) ∧
      Spec.Quantised data pb bb qp qb ∧
      ∀ A, A = Spec.Arpa.ofData data (Spec.unkProb Spec.unkText default (data.getD 0 []) unk) qp qb →
      (∀ (sentence : List (List Byte)) (after : List Byte) (d : Nat) (one : F), (∀ w ∈ sentence, (Spec.IsWord w ∧ w ≠ []) ∧ Spec.Recognised hv U w) →
        (t.python.scorer fb).pyScoreSentence (slice (joinSp sentence ++ after)) d one (joinSp sentence ++ after) (joinSp sentence).length =
          some (((A.wordScores sentence).map (·.1)).foldl (· + ·) 0, sentence.length)) ∧
      (∀ (text : List (List (List Byte))) (d : Nat) (one : F), (∀ l ∈ text, l ≠ [] ∧ ∀ w ∈ l, Spec.IsWord w ∧ Spec.Recognised hv U w) →
        (t.python.scorer fb).pyScoreCorpus (slice (textOf text)) d one (textOf text) =
          some ((text.map fun l => ((A.wordScores l).map (·.1)).foldl (· + ·) 0).foldl (· + ·) 0, (text.map List.length).sum)) := by
  obtain ⟨ps, bs, e1, e2, e3⟩ := Quant.codebooks_ok hsort negInf h.arpa.order_min hq
  obtain ⟨t, f1, f2, f3⟩ := TrieProb.build_ok fb negInf unkBytes default unk h hb hh hj hbits e1 e2
  have hd0 : data[0]? = some (data.getD 0 []) := by
    rw [List.getD_eq_getElem?_getD, List.getElem?_eq_getElem (by have := h.arpa.order_min; omega)]; rfl
  refine ⟨t, _, _, by rw [TrieProb.buildArpa_eq lead gap hg fb sort negInf default unk 0 pb bb hd hwords h.arpa, f1], e3, ?_⟩
  rintro A rfl
  rw [TrieProb.python_eq (TrieProb.build_ro f1)]
  rw [← unkBytes_eq, ← findUnk_spec unkBytes default _ unk (h.arpa.distinct _ (List.mem_of_getElem? hd0)), ← f3 _ hd0]
  have I := TrieProb.implements_all hfb h f2 e2
  rw [← Spec.Arpa.comap_id (Spec.Arpa.ofData data _ _ _)] at I
  have hs : ∀ (A : Spec.Arpa (List Byte) F) (l : List (List Byte)), A.sentenceScore l = ((A.wordScores l).map (·.1)).foldl (· + ·) 0 := by
    intro A l; unfold Spec.Arpa.sentenceScore; rw [List.foldl_map]
  constructor
  · intro sentence after d one hV
    have hat : At (joinSp sentence ++ after) 0 (joinSp sentence) := by unfold At; simp
    rw [← hs]
    refine (Scorer.text_spec (key := slice (joinSp sentence ++ after)) (f := id) (fun _ => rfl) I (ArpaData.wellFormed data _ _ _ h.arpa) d one).2 sentence hat
      (fun w hw => (hV w hw).1) ?_
    intro g hg w hw
    have := occurs_mem hg w hw
    rw [slices_wordRanges hat] at this
    exact (hV w this).2
  · intro text d one hV
    have hat : At (textOf text) 0 (textOf text) := by unfold At; simp
    simp only [← hs]
    refine ((Scorer.text_spec (key := slice (textOf text)) (f := id) (fun _ => rfl) I (ArpaData.wellFormed data _ _ _ h.arpa) d one).1 text rfl
      (fun l hl => ⟨(hV l hl).1, fun w hw => ((hV l hl).2 w hw).1⟩) ?_).2
    intro l hl g hg w hw
    obtain ⟨i, hi⟩ := List.getElem?_of_mem hl
    obtain ⟨l', o, g1, rfl, g3⟩ := at_lines hat hi
    have := occurs_mem hg w hw
    rw [slices_wordRanges g3] at this
    exact ((hV l' (List.mem_of_getElem? g1)).2 w this).2

end

/-- **C47** (Python, `CountModel`, present n-grams).  `lookup` of an n-gram of the files returns its count; on a trie
built with remapping order `ro ≠ 0` (which the Python class cannot query), only for n-grams of up to `ro + 1` words.  See `C47_python_remapped_defect`. -/
theorem C47_python_lookup {L : SortLib} (hL : L.Valid) {U : List (List Byte)} {files : List (List (List (List Byte) × Nat))} {ro : Nat}
    (h : Spec.CountFiles U files ro) (hw : ∀ f ∈ files, f ≠ [] ∧ ∀ r ∈ f, ∀ w ∈ r.1, Spec.FileWord w)
    {hv : Mphf (List Byte) 64} (hb : hv.BuiltFrom U) {hr : Nat → Mphf Nat 64} (hh : Spec.RangeHashes hr files) :
    ∃ t, TrieCount.buildFiles L hv (GramsImpl.fastEF hr) CountRanks.ic.impl ro (files.map Spec.gramsText) = some (.ok t) ∧
      ∀ f ∈ files, ∀ gram count, (gram, count) ∈ f → ro = 0 ∨ gram.length ≤ ro + 1 → t.pyLookup (joinSp gram) = some count := by
  obtain ⟨t, e1, e2⟩ := C44_trie_count_files_to_answers hL h hw hb hh .ic (by intro h; cases h)
  refine ⟨t, e1, fun f hf gram count hm hs => ?_⟩
  have hro : t.ro = ro := TrieCount.build_ro (by rw [← TrieCount.buildFiles_eq L h hw]; exact e1)
  have hg := files_grams h hw f hf _ hm
  have e3 := e2 f hf gram count hm
  unfold TrieCount.lookupString at e3
  rw [queryWords_ok hg.1 hg.2, Option.bind_some] at e3
  unfold TrieCount.pyLookup TrieCount.lookupString
  have := h.counts f hf (gram, count) hm
  rw [queryWords_ok hg.1 hg.2, Option.bind_some, TrieCount.python_short (by rw [hro]; exact h.remapping) (by rw [hro]; exact hs), e3, Option.map_some, if_neg (by unfold NF; simp only at this; omega)]

/-- **C47** (Python, `CountModel`, absent n-grams).  `lookup` of an n-gram that is not in the files returns 0, under the conditions in which the
library itself reports it as absent (see C25). -/
theorem C47_python_lookup_absent {L : SortLib} (hL : L.Valid) {U : List (List Byte)} {files : List (List (List (List Byte) × Nat))}
    (h : Spec.CountFiles U files 0) (hw : ∀ f ∈ files, f ≠ [] ∧ ∀ r ∈ f, ∀ w ∈ r.1, Spec.FileWord w)
    {hv : Mphf (List Byte) 64} (hb : hv.BuiltFrom U) {hr : Nat → Mphf Nat 64} (hh : Spec.RangeHashes hr files) :
    ∃ t, TrieCount.buildFiles L hv (GramsImpl.fastEF hr) CountRanks.ic.impl 0 (files.map Spec.gramsText) = some (.ok t) ∧
      ∀ query : List (List Byte), query ≠ [] → query.length ≤ files.length → (∀ w ∈ query, w ≠ [] ∧ sp ∉ w) → ¬ Spec.Stored files query →
        (∀ w ∈ query, w ∉ U → hv.lookup w ≠ some U.length ∧ ∀ u ∈ U, hv.lookup u = hv.lookup w → Mphf.mix (hv.hasher w) ≠ Mphf.mix (hv.hasher u)) →
        (∀ j, 1 ≤ j → j < query.length → Spec.Stored files (query.take j) → ∃ x, Spec.Stored files (query.take j ++ [x])) →
        t.pyLookup (joinSp query) = some 0 := by
  obtain ⟨t, e1, e2⟩ := C25_absent_gram_not_found hL h hb hh .ic (by intro h; cases h)
  refine ⟨t, by rw [TrieCount.buildFiles_eq L h hw, e1], fun query h1 h2 h3 h4 h5 h6 => ?_⟩
  unfold TrieCount.pyLookup TrieCount.lookupString
  rw [TrieCount.python_eq (TrieCount.build_ro e1)]
  rw [queryWords_ok h1 h3, Option.bind_some, e2 query h1 h2 h4 h5 h6 (by simp), Option.map_some, if_pos rfl]

/-! ## What goes wrong: remapped tries in Python -/

open TrieCountExample in
/-- C47, defect: Python's `CountModel` loads a trie built with `--remapping 1` without complaint, but queries it without remapping: the stored trigram
"2 1 2" (count 8) is not found, and the absent trigram "2 1 1" gets its count. -/
theorem C47_python_remapped_defect :
    Spec.CountFiles [0, 1, 2] files4 1 ∧
    (Option.bind (TrieCount.build exLib MphExample.mphf (GramsImpl.fastEF fun _ => FastEF.exMphf) RanksImpl.ic 1 files4) fun
      | .ok t => some (t.lookup [2, 1, 2], t.lookup [2, 1, 1], t.python.lookup [2, 1, 2], t.python.lookup [2, 1, 1])
      | .error () => none) = some (some 8, some NF, some NF, some 8) :=
  ⟨files4_ok 1 (by omega), by decide +kernel⟩

/-! ## A concrete case -/

namespace FilesExample
open TrieProbExample (fbQ sortQ_ok)

theorem data_words : ∀ f ∈ MphProbExample.data, ∀ r ∈ f, ∀ w ∈ r.1, w ≠ [] ∧ sp ∉ w := by
  intro f hf r hr w hw
  obtain ⟨h1, h2⟩ := MphProbExample.data_input.bytes.words f hf r hr w hw
  exact ⟨h2, fun h => by have := h1 _ h; simp at this⟩

/-- The corpus `a b\nc a b\n`: words of the vocabulary. -/
def corpus : List (List (List Byte)) := [[MphProbExample.w 0, MphProbExample.w 1], [MphProbExample.w 2, MphProbExample.w 0, MphProbExample.w 1]]

example : textOf corpus = str "a b\nc a b\n" := by decide +kernel

theorem corpus_words : ∀ l ∈ corpus, l ≠ [] ∧ ∀ w ∈ l, Spec.IsWord w ∧
    Spec.Recognised (TextExample.mphf3 [MphProbExample.w 0, MphProbExample.w 1, MphProbExample.w 2]) [MphProbExample.w 0, MphProbExample.w 1, MphProbExample.w 2] w := by
  intro l hl
  simp [corpus] at hl
  rcases hl with rfl | rfl <;> refine ⟨by simp, fun w hw => ?_⟩ <;> simp at hw
  · rcases hw with rfl | rfl <;> exact ⟨MphProbExample.w_word _ (by decide), .inl (by simp)⟩
  · rcases hw with rfl | rfl | rfl <;> exact ⟨MphProbExample.w_word _ (by decide), .inl (by simp)⟩

/-- The hypotheses of C46 and C47 are met by the ARPA file of C44's example and this corpus: two sentences, five words. -/
example : ∃ t : TrieProb (List Byte) ℚ, ∃ tot : Totals ℚ,
    (t.scorer fbQ).scoreText (slice (textOf corpus)) 0 0 (textOf corpus) = some tot ∧ tot.sentences = 2 ∧ tot.tokens = 5 := by
  obtain ⟨t, qp, qb, -, -, e⟩ := C46_score_tool_trie 0 0 good fbQ sortQ_ok (-1000) (-100) (-100) lists data_words
    MphProbExample.data_trie MphProbExample.data_input.quant (by decide) MphProbExample.data_input.floats
    (TextExample.built3 (keys := [MphProbExample.w 0, MphProbExample.w 1, MphProbExample.w 2]) rfl (by decide)) MphProbExample.data_hashes
    (junk := fun _ => [0#64]) (by simp)
  exact ⟨t, _, e corpus 0 0 corpus_words, rfl, rfl⟩

example := C46_score_tool_mph 0 0 good fbQ sortQ_ok (-1000) (-100) (-100) 0 lists MphProbExample.data_input

example := C47_python_scores 0 0 good fbQ sortQ_ok (-1000) (-100) (-100) lists data_words
    MphProbExample.data_trie.unmapped MphProbExample.data_input.quant (by decide) MphProbExample.data_input.floats
    (TextExample.built3 (keys := [MphProbExample.w 0, MphProbExample.w 1, MphProbExample.w 2]) rfl (by decide)) MphProbExample.data_hashes
    (junk := fun _ => [0#64]) (by simp)

example : ∃ t, TrieCount.buildFiles exLib (TextExample.mphf3 [MphCountExample.w 0, MphCountExample.w 1, MphCountExample.w 2]) (GramsImpl.fastEF fun _ => FastEF.exMphf)
      RanksImpl.ic 0 (MphCountExample.files.map Spec.gramsText) = some (.ok t) ∧ t.pyLookup (str "a c") = some 2 := by
  obtain ⟨t, e1, e2⟩ := C47_python_lookup exLib_valid files_trie files_words
    (TextExample.built3 (keys := [MphCountExample.w 0, MphCountExample.w 1, MphCountExample.w 2]) rfl (by decide)) files_hashes
  exact ⟨t, e1, e2 _ (List.mem_of_getElem? (i := 1) rfl) [MphCountExample.w 0, MphCountExample.w 2] 2 (by simp) (.inl rfl)⟩

/-- `b a` is not listed: `lookup` gives 0 (with two-level files `b` is a prefix of `b c`). -/
example : ∃ t, TrieCount.buildFiles exLib (TextExample.mphf3 [MphCountExample.w 0, MphCountExample.w 1, MphCountExample.w 2]) (GramsImpl.fastEF fun _ => FastEF.exMphf)
      RanksImpl.ic 0 (MphCountExample.files.map Spec.gramsText) = some (.ok t) ∧ t.pyLookup (str "b a") = some 0 := by
  obtain ⟨t, e1, e2⟩ := C47_python_lookup_absent exLib_valid files_trie files_words
    (TextExample.built3 (keys := [MphCountExample.w 0, MphCountExample.w 1, MphCountExample.w 2]) rfl (by decide)) files_hashes
  refine ⟨t, e1, e2 [MphCountExample.w 1, MphCountExample.w 0] (by simp) (by simp [MphCountExample.files]) ?_ ?_ ?_ ?_⟩
  · intro w hw; simp at hw; rcases hw with rfl | rfl <;> exact ⟨by decide, by decide⟩
  · rintro ⟨f, hf, c, hc⟩
    simp [MphCountExample.files] at hf
    rcases hf with rfl | rfl <;> simp [MphCountExample.w] at hc
  · intro w hw hn; simp at hw hn; rcases hw with rfl | rfl <;> simp at hn
  · intro j h1 h2 _
    simp at h2
    obtain rfl : j = 1 := by omega
    exact ⟨MphCountExample.w 2, _, List.mem_of_getElem? (i := 1) rfl, 3, by simp⟩

end FilesExample
end Tongrams
