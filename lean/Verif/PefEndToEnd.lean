import Verif.CheckModel

/-!
# From the text files to the answers, through a saved model, for tries whose sequences change when they are queried

The programs `build_trie` and `score` (src/build_trie.cpp, src/score.cpp) and the lookups of strings, for all the classes of tries
(include/lm_types.hpp): C44 and C50 for tries over `uniform_pef_sequence`.
-/

set_option linter.unusedSectionVars false

namespace Tongrams

/-! ## The programs -/

/-- Lookups of strings one after the other: `model.lookup(query, adaptor)` for each query (trie_count_lm.hpp:142-189 with stl_string_adaptor). -/
def CountUse.looks {M : Type} (u : CountUse M) : List (List Byte) → M → Option (List Nat × M)
  | [], m => some ([], m)
  | q :: qs, m => (u.look m q).bind fun a => (looks u qs a.2).map fun r => (a.1 :: r.1, r.2)

namespace StScorer
variable {G : GramsSt} {R : RanksSt} {K Wd F C : Type} [LogProb F]

/-- `while (!corpus.end_of_line()) { ... }` (score.cpp:42-57), as `Scorer.textLine`, with a model that is changed by its queries. -/
def textLine (S : StScorer G R K Wd F C) (key : ByteRange → K) (m : Mem) :
    Nat → TextLines → PState Wd F → F → F → St G R (TextLines × PState Wd F × F × F)
  | 0, t, st, sum, oov => if t.eol then St.pure (t, st, sum, oov) else St.fail
  | n + 1, t, st, sum, oov => if t.eol then St.pure (t, st, sum, oov) else
    St.bind (St.lift (t.nextWord m)) fun x => St.bind (S.score st (key x.1)) fun r =>
      textLine S key m n x.2 r.1 (sum + r.2.1) (if r.2.2 then oov + r.2.1 else oov)

/-- `while (!corpus.end_of_file()) { ... }` (score.cpp:35-66). -/
def textLoop (S : StScorer G R K Wd F C) (key : ByteRange → K) (m : Mem) :
    Nat → TextLines → PState Wd F → Totals F → St G R (Totals F)
  | 0, t, _, tot => if t.pos = m.length then St.pure { tot with tokens := t.words } else St.fail
  | n + 1, t, st, tot => if t.pos = m.length then St.pure { tot with tokens := t.words } else
    St.bind (St.lift st.init) fun st =>
    St.bind (S.textLine key m m.length { t with eol := false } st 0 tot.onlyOOVs) fun r =>
      textLoop S key m n r.1 r.2.1 ⟨tot.oovs + r.2.1.oovs, tot.sentences + 1, 0, tot.total + r.2.2.1, r.2.2.2⟩

/-- `score_corpus<Model>` of the program `score` (score.cpp:20-68) on the bytes `m` of the corpus file. -/
def scoreText (S : StScorer G R K Wd F C) (key : ByteRange → K) (d : Wd) (one : F) (m : Mem) : St G R (Totals F) :=
  St.bind (St.lift (PState.new S.order d one)) fun st => S.textLoop key m m.length TextLines.new st ⟨0, 0, 0, 0, 0⟩

end StScorer

/-- `score_corpus(model, text)` (score.cpp:20-68) on the bytes of a text: what it prints, and the model after. -/
def StProb.scoreText {F : Type} [FloatArith F] {G : GramsSt} {R : RanksSt} (fb : FloatBits F) (t : StProb (List Byte) F G R) (d : Nat) (one : F)
    (m : Mem) : Option (Totals F × StProb (List Byte) F G R) :=
  ((t.scorer fb).scoreText (slice m) d one m t.arrs).map fun r => (r.1, { t with arrs := r.2 })

/-- The builder on the bytes of an ARPA file (trie_prob_lm.hpp:17-164, arpa parser), for tries with sequences that keep a position. -/
def StProb.buildArpa {F : Type} [FloatArith F] (strtod : List Byte → F × Nat) (fb : FloatBits F) (sort : List F → List F) (negInf default : F)
    (hv : Mphf (List Byte) 64) (G : GramsSt) (R : RanksSt) (ro : Nat) (unk : F) (pb bb order : Nat) (file : List Byte) :
    Res (StProb (List Byte) F G R) :=
  Res.bind (arpaSections strtod file order) fun fs =>
  Res.bind (Res.lift (fs.mapM fun f => f.mapM fun r => (queryWords r.1).map fun ws => (ws, r.2))) fun data =>
  StProb.build fb sort negInf unkBytes default hv G R ro unk pb bb data

/-! ## Proofs -/

theorem StCount.looks_eq {G : GramsSt} {R : RanksSt} : ∀ (qs : List (List (List Byte))) (t : StCount (List Byte) G R),
    (∀ q ∈ qs, q ≠ [] ∧ ∀ w ∈ q, w ≠ [] ∧ sp ∉ w) → StCount.use.looks (qs.map joinSp) t = t.lookups qs
  | [], _, _ => rfl
  | q :: qs, t, h => by
    rw [List.map_cons, CountUse.looks, StCount.lookups]
    have e : StCount.use.look t (joinSp q) = t.lookup q := by
      show (queryWords (joinSp q)).bind t.lookup = _
      rw [queryWords_ok (h q List.mem_cons_self).1 (h q List.mem_cons_self).2, Option.bind_some]
    rw [e]
    cases t.lookup q with
    | none => rfl
    | some r =>
      simp only [Option.bind_some]
      rw [StCount.looks_eq qs r.2 fun q hq => h q (List.mem_cons_of_mem _ hq)]

namespace StScorer
variable {G : GramsSt} {R : RanksSt} {K Wd F C : Type} [LogProb F]

theorem textLine_eq (S : StScorer G R K Wd F C) (key : ByteRange → K) (m : Mem) (n : Nat) : ∀ (t : TextLines) (st : PState Wd F) (sum oov : F)
    (A : List (StArray G R)) {rs : List ByteRange} {t' : TextLines}, t.line m n = some (rs, t') →
    S.textLine key m n t st sum oov A = (S.lineLoop (rs.map key) st sum oov A).map fun r => ((t', r.1), r.2) := by
  induction n with
  | zero =>
    intro t st sum oov A rs t' h
    rw [TextLines.line] at h
    rw [textLine]
    split at h
    · rename_i he; cases h; rw [if_pos he]; rfl
    · cases h
  | succ n ih =>
    intro t st sum oov A rs t' h
    rw [TextLines.line] at h
    rw [textLine]
    split at h
    · rename_i he; cases h; rw [if_pos he]; rfl
    · rename_i he
      rw [if_neg he]
      obtain ⟨x, hx, h⟩ := Option.bind_eq_some_iff.1 h
      obtain ⟨y, hy, h⟩ := Option.map_eq_some_iff.1 h
      cases h
      rw [hx, List.map_cons, lineLoop]
      simp only [St.bind, St.lift, Option.map_some, Option.bind_some]
      cases hs : S.score st (key x.1) A with
      | none => rfl
      | some r =>
        simp only [Option.bind_some]
        rw [ih _ _ _ _ _ hy]

theorem corpusLoop_tokens (S : StScorer G R K Wd F C) (w : Nat) : ∀ (ls : List (List K)) (st : PState Wd F) (a b : Totals F) (A : List (StArray G R)),
    a.oovs = b.oovs → a.sentences = b.sentences → a.total = b.total → a.onlyOOVs = b.onlyOOVs →
    (S.corpusLoop ls st a A).map (fun r => ({ r.1.2 with tokens := w }, r.2)) =
    (S.corpusLoop ls st b A).map (fun r => ({ r.1.2 with tokens := w }, r.2)) := by
  intro ls
  induction ls with
  | nil =>
    intro st a b A h1 h2 h3 h4
    obtain ⟨a1, a2, a3, a4, a5⟩ := a
    obtain ⟨b1, b2, b3, b4, b5⟩ := b
    simp only at h1 h2 h3 h4
    subst h1 h2 h3 h4
    rfl
  | cons l ls ih =>
    intro st a b A h1 h2 h3 h4
    rw [corpusLoop, corpusLoop]
    simp only [St.bind, St.lift]
    cases st.init with
    | none => rfl
    | some st0 =>
      simp only [Option.map_some, Option.bind_some]
      rw [h4]
      cases S.lineLoop l st0 0 b.onlyOOVs A with
      | none => rfl
      | some r =>
        simp only [Option.bind_some]
        exact ih _ _ _ _ (by simp only [h1]) (by simp only [h2]) (by simp only [h3]) rfl

theorem textLoop_eq (S : StScorer G R K Wd F C) (key : ByteRange → K) (m : Mem) (n : Nat) : ∀ (t : TextLines) (st : PState Wd F) (tot : Totals F)
    (A : List (StArray G R)) {rs : List (List ByteRange)} {t' : TextLines}, t.lines m n = some (rs, t') →
    S.textLoop key m n t st tot A = (S.corpusLoop (rs.map (·.map key)) st tot A).map fun r => ({ r.1.2 with tokens := t'.words }, r.2) := by
  induction n with
  | zero =>
    intro t st tot A rs t' h
    rw [TextLines.lines] at h
    rw [textLoop]
    split at h
    · rename_i he; cases h; rw [if_pos he]; rfl
    · cases h
  | succ n ih =>
    intro t st tot A rs t' h
    rw [TextLines.lines] at h
    rw [textLoop]
    split at h
    · rename_i he; cases h; rw [if_pos he]; rfl
    · rename_i he
      rw [if_neg he]
      obtain ⟨x, hx, h⟩ := Option.bind_eq_some_iff.1 h
      obtain ⟨y, hy, h⟩ := Option.map_eq_some_iff.1 h
      cases h
      rw [List.map_cons, corpusLoop]
      simp only [St.bind, St.lift]
      cases hi : st.init with
      | none => rfl
      | some st0 =>
        simp only [Option.map_some, Option.bind_some]
        rw [textLine_eq S key m _ _ _ _ _ _ hx]
        cases hl : S.lineLoop (x.1.map key) st0 0 tot.onlyOOVs A with
        | none => rfl
        | some r =>
          simp only [Option.bind_some, Option.map_some]
          rw [ih _ _ _ _ hy]
          exact corpusLoop_tokens S _ _ _ _ _ _ rfl rfl rfl rfl

theorem scoreText_eq (S : StScorer G R K Wd F C) (key : ByteRange → K) (d : Wd) (one : F) {m : Mem} {rs : List (List ByteRange)} {t' : TextLines}
    (h : TextLines.all m = some (rs, t')) (A : List (StArray G R)) :
    S.scoreText key d one m A = (S.scoreCorpus d one (rs.map (·.map key)) A).map fun r => ({ r.1 with tokens := t'.words }, r.2) := by
  unfold scoreText scoreCorpus
  simp only [St.bind, St.lift]
  cases PState.new S.order d one with
  | none => rfl
  | some st =>
    simp only [Option.map_some, Option.bind_some]
    rw [textLoop_eq S key m _ _ _ _ _ h]
    cases S.corpusLoop (rs.map (·.map key)) st ⟨0, 0, 0, 0, 0⟩ A <;> rfl

end StScorer

/-- Scoring the bytes of a text is scoring its sentences. -/
theorem StProb.scoreText_ok {F : Type} [FloatArith F] {G : GramsSt} {R : RanksSt} {fb : FloatBits F} {t t' : StProb (List Byte) F G R} {d : Nat}
    {one : F} {text : List (List (List Byte))} (hw : ∀ l ∈ text, l ≠ [] ∧ ∀ w ∈ l, Spec.IsWord w) {A : Spec.Arpa (List Byte) F}
    (h : t.scoreCorpus fb d one text = some (A.corpus text, t')) :
    t.scoreText fb d one (textOf text) = some (A.corpus text, t') := by
  obtain ⟨rs, tl, h1, h2, rfl, h4⟩ := C31_text_lines text hw
  unfold StProb.scoreCorpus at h
  unfold StProb.scoreText
  rw [StScorer.scoreText_eq _ _ d one h1, h2]
  obtain ⟨r, e1, e2⟩ := Option.map_eq_some_iff.1 h
  have e3 := congrArg Prod.fst e2
  have e4 := congrArg Prod.snd e2
  simp only at e3 e4
  rw [e1, Option.map_some, Option.map_some, ← e4, e3, h4]
  rfl

theorem StProb.buildArpa_eq {F : Type} [FloatArith F] {strtod : List Byte → F × Nat} (lead gap : Nat) {sections : List (List (Spec.ArpaLine F) × Nat)}
    {tail : List Byte} (hg : Spec.GoodArpa strtod sections tail) (fb : FloatBits F) (sort : List F → List F) (negInf default unk : F)
    {data : List (List (List (List Byte) × F × F))} (ro pb bb : Nat) (hd : Spec.ArpaLists sections data)
    (hwords : ∀ f ∈ data, ∀ r ∈ f, ∀ w ∈ r.1, w ≠ [] ∧ sp ∉ w) (ha : Spec.ArpaFiles data) (hv : Mphf (List Byte) 64) (G : GramsSt) (R : RanksSt) :
    StProb.buildArpa strtod fb sort negInf default hv G R ro unk pb bb sections.length (Spec.arpaText lead gap sections tail) =
      StProb.build fb sort negInf unkBytes default hv G R ro unk pb bb data := by
  unfold StProb.buildArpa
  rw [arpaSections_ok lead gap hg hd, Res.bind_ok]
  have hdata : (Spec.lines data).mapM (fun f => f.mapM fun r => (queryWords r.1).map fun ws => (ws, r.2)) = some data := by
    have hin : ∀ f ∈ data, (f.map fun r => (joinSp r.1, r.2)).mapM
        (fun r => (queryWords r.1).map fun ws => (ws, r.2)) = some f := by
      intro f hf
      have := mapM_map_ok (g := fun r : List (List Byte) × F × F => (joinSp r.1, r.2))
        (f := fun r => (queryWords r.1).map fun ws => (ws, r.2)) (h := id) (l := f) (by
          intro r hrf
          obtain ⟨k, hk⟩ := List.getElem?_of_mem hf
          have hl := ha.len k f hk r hrf
          simp only
          rw [queryWords_ok (by intro e; rw [e] at hl; simp at hl) (hwords f hf r hrf), Option.map_some]
          rfl)
      rw [this, List.map_id]
    have := mapM_map_ok (h := id) hin
    rw [List.map_id] at this
    exact this
  rw [hdata, Res.lift_some, Res.bind_ok]

/-! ## The theorems -/

/-- Specification: a query and its answer: a listed n-gram and its count, or an n-gram of words that `Absent` covers, which is not found. -/
def Spec.TextQuery (files : List (List (List (List Byte) × Nat))) (Absent : List (List Byte) → Prop) (p : List (List Byte) × Nat) : Prop :=
  (∃ f ∈ files, p ∈ f) ∨ (p.2 = NF ∧ Absent p.1 ∧ ∀ w ∈ p.1, w ≠ [] ∧ sp ∉ w)

theorem Spec.TextQuery.words {U : List (List Byte)} {files : List (List (List (List Byte) × Nat))} {ro : Nat} (h : Spec.CountFiles U files ro)
    (hw : ∀ f ∈ files, f ≠ [] ∧ ∀ r ∈ f, ∀ w ∈ r.1, Spec.FileWord w) {Absent : List (List Byte) → Prop} (ha : ∀ q, Absent q → q ≠ [])
    {s : List (List (List Byte) × Nat)} (hs : ∀ p ∈ s, Spec.TextQuery files Absent p) : ∀ q ∈ s.map (·.1), q ≠ [] ∧ ∀ w ∈ q, w ≠ [] ∧ sp ∉ w := by
  intro q hq
  obtain ⟨p, hp, rfl⟩ := List.mem_map.1 hq
  rcases hs p hp with ⟨f, hf, hpf⟩ | ⟨-, h1, h2⟩
  · exact files_grams h hw f hf p hpf
  · exact ⟨ha _ h1, h2⟩

/-- **C50** and **C44** (count tries over `uniform_pef_sequence` grams, with any of the rank sequences): from the text files through the saved
model.  The bytes of the sorted count files give a trie; it answers any session of queries; saved after that and loaded by a process with other
words in memory, exactly the bytes of the file are read, and the loaded trie answers any session of queries with the counts of the text files. -/
theorem C50_pef_count_trie {L : SortLib} (hL : L.Valid) {U : List (List Byte)} {files : List (List (List (List Byte) × Nat))} {ro : Nat}
    (h : Spec.CountFiles U files ro) (hp : Spec.PefFiles U files ro) (hw : ∀ f ∈ files, f ≠ [] ∧ ∀ r ∈ f, ∀ w ∈ r.1, Spec.FileWord w)
    {hv : Mphf (List Byte) 64} (hb : hv.BuiltFrom U) {c : Emphf (List Byte) 64} (hc : Spec.EmphfReads c hv)
    {junkU junkD junkU' junkD' : Nat → List W} (hu : ∀ k, junkU k ≠ []) (hj : ∀ k, junkD k ≠ []) (hu' : ∀ k, junkU' k ≠ []) (hj' : ∀ k, junkD' k ≠ [])
    (pr : PefRanks) (hpr : ∀ f ∈ files, f.length < pr.maxLines) {ji : ICSeq} {je jp : EF} (hji : ji.Fits) (hje : je.Fits) (hjp : jp.Fits) (header : Byte) :
    ∃ t, StCount.buildFiles L hv (GramsSt.pef junkU junkD) (pr.stored junkU junkD) ro (files.map Spec.gramsText) = some (.ok t) ∧
      ∀ before : List (List (List Byte) × Nat), (∀ p ∈ before, Spec.TextQuery files (Spec.PefAbsent hv U files ro) p) →
        ∃ t1, StCount.use.looks (before.map fun p => joinSp p.1) t = some (before.map (·.2), t1) ∧
        ∃ t2, loadFile (StCount.load (GramsFile.pef junkU' junkD') (pr.file junkU' junkD' ji je) c)
            (saveFile header (t1.save (GramsFile.pef junkU junkD) (pr.file junkU junkD ji je) jp c)) =
            some (t2, (saveFile header (t1.save (GramsFile.pef junkU junkD) (pr.file junkU junkD ji je) jp c)).length) ∧
          ∀ after : List (List (List Byte) × Nat), (∀ p ∈ after, Spec.TextQuery files (Spec.PefAbsent hv U files ro) p) →
            ∃ t3, StCount.use.looks (after.map fun p => joinSp p.1) t2 = some (after.map (·.2), t3) := by
  obtain ⟨t, e, ht⟩ := C36_pef_trie_count_through_a_file hL h hp hb hc hu hj hu' hj' pr hpr hji hje hjp header
  have hq : ∀ {s : List (List (List Byte) × Nat)}, (∀ p ∈ s, Spec.TextQuery files (Spec.PefAbsent hv U files ro) p) →
      ∀ q ∈ s.map (·.1), q ≠ [] ∧ ∀ w ∈ q, w ≠ [] ∧ sp ∉ w := fun hs => Spec.TextQuery.words h hw (fun q hq => hq.ne) hs
  have hm : ∀ s : List (List (List Byte) × Nat), s.map (fun p => joinSp p.1) = (s.map (·.1)).map joinSp := fun s => by rw [List.map_map]; rfl
  refine ⟨t, by rw [StCount.buildFiles_eq L h hw, e], fun before hs => ?_⟩
  obtain ⟨t1, e1, -, t2, e2, -, h2⟩ := ht before fun p hp => (hs p hp).imp id fun x => ⟨x.1, x.2.1⟩
  refine ⟨t1, by rw [hm, StCount.looks_eq _ _ (hq hs), e1], t2, e2, fun after hs' => ?_⟩
  obtain ⟨t3, e3⟩ := h2 after fun p hp => (hs' p hp).imp id fun x => ⟨x.1, x.2.1⟩
  exact ⟨t3, by rw [hm, StCount.looks_eq _ _ (hq hs'), e3]⟩

/-- **C50** and **C44**: the same for `fast_ef_sequence` grams with any of the rank sequences, also those that queries change, and with queries of
absent n-grams. -/
theorem C50_ef_count_trie {L : SortLib} (hL : L.Valid) {U : List (List Byte)} {files : List (List (List (List Byte) × Nat))} {ro : Nat}
    (h : Spec.CountFiles U files ro) (hw : ∀ f ∈ files, f ≠ [] ∧ ∀ r ∈ f, ∀ w ∈ r.1, Spec.FileWord w)
    {hv : Mphf (List Byte) 64} (hb : hv.BuiltFrom U) {c : Emphf (List Byte) 64} (hc : Spec.EmphfReads c hv)
    {hr : Nat → Mphf Nat 64} (hh : Spec.RangeHashes hr files)
    {c' : Emphf Nat 64} (hc' : ∀ k, Spec.EmphfReads c' (hr k)) {ju : UTable Nat 64} (hju : ju.Fits c') {jg : FastEF} (hjg : jg.Fits c')
    {junkU junkD junkU' junkD' : Nat → List W} (hu : ∀ k, junkU k ≠ []) (hj : ∀ k, junkD k ≠ []) (hu' : ∀ k, junkU' k ≠ []) (hj' : ∀ k, junkD' k ≠ [])
    (pr : PefRanks) (hpr : ∀ f ∈ files, f.length < pr.maxLines) {ji : ICSeq} {je jp : EF} (hji : ji.Fits) (hje : je.Fits) (hjp : jp.Fits) (header : Byte) :
    ∃ t, StCount.buildFiles L hv (GramsData.fastEF hr c' ju).st (pr.stored junkU junkD) ro (files.map Spec.gramsText) = some (.ok t) ∧
      ∀ before : List (List (List Byte) × Nat), (∀ p ∈ before, Spec.TextQuery files (Spec.EfAbsent hv U files ro) p) →
        ∃ t1, StCount.use.looks (before.map fun p => joinSp p.1) t = some (before.map (·.2), t1) ∧
        ∃ t2, loadFile (StCount.load (GramsFile.data (GramsData.fastEF hr c' ju) jg) (pr.file junkU' junkD' ji je) c)
            (saveFile header (t1.save (GramsFile.data (GramsData.fastEF hr c' ju) jg) (pr.file junkU junkD ji je) jp c)) =
            some (t2, (saveFile header (t1.save (GramsFile.data (GramsData.fastEF hr c' ju) jg) (pr.file junkU junkD ji je) jp c)).length) ∧
          ∀ after : List (List (List Byte) × Nat), (∀ p ∈ after, Spec.TextQuery files (Spec.EfAbsent hv U files ro) p) →
            ∃ t3, StCount.use.looks (after.map fun p => joinSp p.1) t2 = some (after.map (·.2), t3) := by
  obtain ⟨t, e, ht⟩ := C36_ef_trie_count_through_a_file hL h hb hc hh hc' hju hjg hu hj hu' hj' pr hpr hji hje hjp header
  have hq : ∀ {s : List (List (List Byte) × Nat)}, (∀ p ∈ s, Spec.TextQuery files (Spec.EfAbsent hv U files ro) p) →
      ∀ q ∈ s.map (·.1), q ≠ [] ∧ ∀ w ∈ q, w ≠ [] ∧ sp ∉ w := fun hs => Spec.TextQuery.words h hw (fun q hq => hq.ne) hs
  have hm : ∀ s : List (List (List Byte) × Nat), s.map (fun p => joinSp p.1) = (s.map (·.1)).map joinSp := fun s => by rw [List.map_map]; rfl
  refine ⟨t, by rw [StCount.buildFiles_eq L h hw, e], fun before hs => ?_⟩
  obtain ⟨t1, e1, -, t2, e2, -, h2⟩ := ht before fun p hp => (hs p hp).imp id fun x => ⟨x.1, x.2.1⟩
  refine ⟨t1, by rw [hm, StCount.looks_eq _ _ (hq hs), e1], t2, e2, fun after hs' => ?_⟩
  obtain ⟨t3, e3⟩ := h2 after fun p hp => (hs' p hp).imp id fun x => ⟨x.1, x.2.1⟩
  exact ⟨t3, by rw [hm, StCount.looks_eq _ _ (hq hs'), e3]⟩

/-- **C50** and **C44** (backoff tries over `uniform_pef_sequence` grams): the bytes of the ARPA file give a trie; saved after any session of scoring
that C55 covers and loaded by a process with other words in memory, exactly the bytes of the file are read, and the program `score` prints for any
text that C55 covers what the ARPA file says. -/
theorem C50_pef_backoff_trie {V : Type} [FloatArith V] {strtod : List Byte → V × Nat} (lead gap : Nat)
    {sections : List (List (Spec.ArpaLine V) × Nat)} {tail : List Byte} (hg : Spec.GoodArpa strtod sections tail)
    (fb : FloatBits V) {sort : List V → List V} (hsort : ∀ l, (sort l).Perm l ∧ (sort l).Pairwise (· ≤ ·))
    (negInf default unk : V) {U : List (List Byte)} {data : List (List (List (List Byte) × V × V))} {ro pb bb : Nat}
    (hd : Spec.ArpaLists sections data) (hwords : ∀ f ∈ data, ∀ r ∈ f, ∀ w ∈ r.1, w ≠ [] ∧ sp ∉ w)
    (h : Spec.ProbFiles U data ro) (hp : Spec.PefFiles U (TrieProb.asCounts data) ro) (hq : Spec.Quantisable data pb bb) (hbits : pb + bb ≤ 58)
    (hfb : ∀ f0, data[0]? = some f0 → ∀ r ∈ f0, fb.dec (fb.enc r.2.1) = r.2.1 ∧ fb.dec (fb.enc r.2.2) = r.2.2)
    (hcb : ∀ ps bs, Quant.codebooks sort negInf pb bb data = some (.ok (ps, bs)) → ∀ l ∈ ps ++ bs, ∀ x ∈ l, Spec.IsFloat fb x)
    (hunk : Spec.IsFloat fb (Spec.unkProb Spec.unkText default (data.getD 0 []) unk))
    {hv : Mphf (List Byte) 64} (hb : hv.BuiltFrom U) {c : Emphf (List Byte) 64} (hc : Spec.EmphfReads c hv)
    {junkU junkD junk junkU' junkD' junk' : Nat → List W} (hu : ∀ k, junkU k ≠ []) (hjd : ∀ k, junkD k ≠ []) (hj : ∀ k, junk k ≠ [])
    (hu' : ∀ k, junkU' k ≠ []) (hjd' : ∀ k, junkD' k ≠ []) (hj' : ∀ k, junk' k ≠ []) {jr : CompactVector} {jp : EF} (hjr : jr.Fits) (hjp : jp.Fits)
    (header : Byte) :
    ∃ t qp qb, StProb.buildArpa strtod fb sort negInf default hv (GramsSt.pef junkU junkD) (RanksData.cv.st junk) ro unk pb bb sections.length
        (Spec.arpaText lead gap sections tail) = some (.ok t) ∧
      Spec.Quantised data pb bb qp qb ∧
      ∀ A, A = Spec.Arpa.ofData data (Spec.unkProb Spec.unkText default (data.getD 0 []) unk) qp qb →
      ∀ (n : Nat) (ops : List (Nat × Option (List Byte))) (d : Nat) (one : V), (∀ o ∈ ops, o.1 < n) →
        Spec.SessionGrams (Spec.PefScorable hv U data ro) ops (fun _ => []) →
        ∃ t1, t.session fb d one n ops = some (A.session ops (fun _ => []), t1) ∧
          ∃ t2, loadFile (StProb.load (GramsFile.pef junkU' junkD') (RanksFile.data RanksData.cv junk' jr) fb c)
              (saveFile header (t1.save (GramsFile.pef junkU junkD) (RanksFile.data RanksData.cv junk jr) jp fb c bb)) =
              some (t2, (saveFile header (t1.save (GramsFile.pef junkU junkD) (RanksFile.data RanksData.cv junk jr) jp fb c bb)).length) ∧
            ∀ (text : List (List (List Byte))) (d : Nat) (one : V), (∀ l ∈ text, l ≠ [] ∧ ∀ w ∈ l, Spec.IsWord w) →
              (∀ l ∈ text, ∀ g, Scorer.Occurs l g → Spec.PefScorable hv U data ro g.reverse) →
              ∃ t3, t2.scoreText fb d one (textOf text) = some (A.corpus text, t3) := by
  rw [← unkBytes_eq] at hunk
  obtain ⟨t, qp, qb, e1, e2, ht⟩ := C36_pef_trie_prob_through_a_file fb hsort negInf unkBytes default unk h hp hq hbits hfb hcb hunk hb hc
    hu hjd hj hu' hjd' hj' hjr hjp header
  refine ⟨t, qp, qb, by rw [StProb.buildArpa_eq lead gap hg fb sort negInf default unk ro pb bb hd hwords h.arpa, e1], e2, ?_⟩
  rintro A rfl
  rw [← unkBytes_eq]
  intro n ops d one ho hS
  obtain ⟨t1, g1, -, t2, g2, -, -, g3⟩ := ht n ops d one ho hS
  refine ⟨t1, g1, t2, g2, fun text d one hw hT => ?_⟩
  obtain ⟨t3, g4⟩ := g3 text d one hT
  exact ⟨t3, StProb.scoreText_ok hw g4⟩

namespace PefEndExample
open SaveExample EndExample FilesExample TrieProbExample

theorem absent_bb : Spec.PefAbsent (TextExample.mphf3 U) U MphCountExample.files 0 [MphCountExample.w 1, MphCountExample.w 1] where
  ne := by simp
  len := by simp [MphCountExample.files]
  absent := by
    rintro ⟨f, hf, c, hc⟩
    simp only [MphCountExample.files, List.mem_cons, List.not_mem_nil, or_false] at hf
    have h1 : MphCountExample.w 1 ≠ MphCountExample.w 0 := by decide
    have h2 : MphCountExample.w 1 ≠ MphCountExample.w 2 := by decide
    rcases hf with rfl | rfl <;> simp [h1, h2] at hc
  words := by decide
  last := by
    intro j h1 h2 _ _
    obtain rfl : j = 1 := by simp at h2; omega
    refine ⟨⟨MphCountExample.w 2, _, List.mem_of_getElem? (i := 1) rfl, 3, by simp⟩, fun _ => ⟨by decide, MphCountExample.w 2,
      ⟨_, List.mem_of_getElem? (i := 1) rfl, 3, by simp⟩, by decide⟩⟩
  window := by intro h; exact absurd rfl h

/-- Two queries before saving and three after loading: `a c` occurs twice, `b b` is not found. -/
example : ∃ t, StCount.buildFiles exLib (TextExample.mphf3 U) (GramsSt.pef (fun _ => [7]) fun _ => [9]) ((PefRanks.pspef true).stored (fun _ => [7]) fun _ => [9])
      0 (MphCountExample.files.map Spec.gramsText) = some (.ok t) ∧
    ∃ t1, StCount.use.looks [str "a c", str "b"] t = some ([2, 7], t1) ∧
    ∃ t2 n, loadFile (StCount.load (GramsFile.pef (fun _ => [1, 5]) fun _ => [3]) ((PefRanks.pspef true).file (fun _ => [1, 5]) (fun _ => [3]) icJunk ptrs)
        (codecOf [(TextExample.mphf3 U).hasher]))
      (saveFile 7#8 (t1.save (GramsFile.pef (fun _ => [7]) fun _ => [9]) ((PefRanks.pspef true).file (fun _ => [7]) (fun _ => [9]) icJunk ptrs) ptrs
        (codecOf [(TextExample.mphf3 U).hasher]))) = some (t2, n) ∧
    ∃ t3, StCount.use.looks [str "b b", str "a c", str "b c"] t2 = some ([NF, 2, 3], t3) := by
  obtain ⟨t, e, h⟩ := C50_pef_count_trie exLib_valid files_trie CheckExample.files_pef files_words
    (TextExample.built3 (keys := U) rfl (by decide)) voc_read (junkU := fun _ => [7]) (junkD := fun _ => [9]) (junkU' := fun _ => [1, 5])
    (junkD' := fun _ => [3]) (by simp) (by simp) (by simp) (by simp) (.pspef true) (by simp [MphCountExample.files, PefRanks.maxLines])
    (ji := icJunk) (je := ptrs) (jp := ptrs) PefSaveExample.ic_fits ptrs_fits ptrs_fits 7#8
  have hl : ∀ p : List (List Byte) × Nat, p ∈ [([MphCountExample.w 0, MphCountExample.w 2], 2), ([MphCountExample.w 1], 7),
      ([MphCountExample.w 1, MphCountExample.w 2], 3)] → Spec.TextQuery MphCountExample.files (Spec.PefAbsent (TextExample.mphf3 U) U MphCountExample.files 0) p := by
    intro p hp
    simp only [List.mem_cons, List.not_mem_nil, or_false] at hp
    rcases hp with rfl | rfl | rfl
    · exact .inl ⟨_, List.mem_of_getElem? (i := 1) rfl, by simp⟩
    · exact .inl ⟨_, List.mem_of_getElem? (i := 0) rfl, by simp⟩
    · exact .inl ⟨_, List.mem_of_getElem? (i := 1) rfl, by simp⟩
  obtain ⟨t1, e1, t2, e2, h2⟩ := h [([MphCountExample.w 0, MphCountExample.w 2], 2), ([MphCountExample.w 1], 7)] fun p hp => hl p (by
    simp only [List.mem_cons, List.not_mem_nil, or_false] at hp ⊢
    rcases hp with h | h <;> simp only [h, true_or, or_true])
  obtain ⟨t3, e3⟩ := h2 [([MphCountExample.w 1, MphCountExample.w 1], NF), ([MphCountExample.w 0, MphCountExample.w 2], 2),
      ([MphCountExample.w 1, MphCountExample.w 2], 3)] fun p hp => by
    rcases List.mem_cons.1 hp with rfl | hp
    · exact .inr ⟨rfl, absent_bb, by decide⟩
    · refine hl p ?_
      simp only [List.mem_cons, List.not_mem_nil, or_false] at hp ⊢
      rcases hp with h | h <;> simp only [h, true_or, or_true]
  exact ⟨t, e, t1, e1, t2, _, e2, t3, e3⟩

example := C50_ef_count_trie exLib_valid files_trie files_words
    (TextExample.built3 (keys := U) rfl (by decide)) voc_read files_hashes ranges_read junk_fits (fef_fits [1, 2] (by decide) (by decide))
    (junkU := fun _ => [7]) (junkD := fun _ => [9]) (junkU' := fun _ => [1, 5])
    (junkD' := fun _ => [3]) (by simp) (by simp) (by simp) (by simp) (.pspef false) (by simp [MphCountExample.files, PefRanks.maxLines])
    (ji := icJunk) (je := ptrs) (jp := ptrs) PefSaveExample.ic_fits ptrs_fits ptrs_fits 7#8

theorem data_pef : Spec.PefFiles U (TrieProb.asCounts MphProbExample.data) 1 where
  span := by simp [MphProbExample.data, TrieProb.asCounts, U]
  nonzero := by
    intro k f h _ _
    rcases k with _ | _ | k <;> simp [MphProbExample.data, TrieProb.asCounts] at h <;> subst h <;> simp [MphProbExample.data, TrieProb.asCounts] <;> decide

theorem corpus_listed : ∀ l ∈ corpus, ∀ g, Scorer.Occurs l g → ∃ f ∈ MphProbExample.data, ∃ r ∈ f, r.1 = g.reverse := by
  intro l hl g hg
  obtain ⟨i, k, h1, h2, rfl⟩ := hg
  simp only [corpus, List.mem_cons, List.not_mem_nil, or_false] at hl
  rcases hl with rfl | rfl
  · rcases i with _ | _ | i
    · rcases k with _ | k
      · omega
      · exact ⟨_, List.mem_of_getElem? (i := 0) rfl, _, List.mem_of_getElem? (i := 0) rfl, by simp⟩
    · rcases k with _ | _ | k
      · omega
      · exact ⟨_, List.mem_of_getElem? (i := 0) rfl, _, List.mem_of_getElem? (i := 1) rfl, by simp⟩
      · exact ⟨_, List.mem_of_getElem? (i := 1) rfl, _, List.mem_of_getElem? (i := 2) rfl, by simp⟩
    · simp at h1
  · rcases i with _ | _ | _ | i
    · rcases k with _ | k
      · omega
      · exact ⟨_, List.mem_of_getElem? (i := 0) rfl, _, List.mem_of_getElem? (i := 2) rfl, by simp⟩
    · rcases k with _ | _ | k
      · omega
      · exact ⟨_, List.mem_of_getElem? (i := 0) rfl, _, List.mem_of_getElem? (i := 0) rfl, by simp⟩
      · exact ⟨_, List.mem_of_getElem? (i := 1) rfl, _, List.mem_of_getElem? (i := 1) rfl, by simp⟩
    · rcases k with _ | _ | _ | k
      · omega
      · exact ⟨_, List.mem_of_getElem? (i := 0) rfl, _, List.mem_of_getElem? (i := 1) rfl, by simp⟩
      · exact ⟨_, List.mem_of_getElem? (i := 1) rfl, _, List.mem_of_getElem? (i := 2) rfl, by simp⟩
      · exact ⟨_, List.mem_of_getElem? (i := 2) rfl, _, List.mem_of_getElem? (i := 2) rfl, by simp⟩
    · simp at h1; omega

/-- The ARPA file of C44's example and a corpus of two sentences, through a file that was saved after scoring two words. -/
example : ∃ t, StProb.buildArpa strtod fb8 sortQ (-1000) (-100) (TextExample.mphf3 U) (GramsSt.pef (fun _ => [7]) fun _ => [9])
      (RanksData.cv.st fun _ => [0#64]) 1 (-100) 2 2 3 (Spec.arpaText 0 0 sections [nl]) = some (.ok t) ∧
    ∃ t1 v, t.session fb8 7 1 1 [(0, some (MphProbExample.w 2)), (0, some (MphProbExample.w 0))] = some (v, t1) ∧
    ∃ t2 n, loadFile (StProb.load (GramsFile.pef (fun _ => [1, 5]) fun _ => [3]) (RanksFile.data RanksData.cv (fun _ => [4#64]) cvJunk) fb8
        (codecOf [(TextExample.mphf3 U).hasher]))
      (saveFile 9#8 (t1.save (GramsFile.pef (fun _ => [7]) fun _ => [9]) (RanksFile.data RanksData.cv (fun _ => [0#64]) cvJunk) ptrs fb8
        (codecOf [(TextExample.mphf3 U).hasher]) 2)) = some (t2, n) ∧
    ∃ t3, ∃ tot : Totals ℚ, t2.scoreText fb8 0 0 (textOf corpus) = some (tot, t3) ∧ tot.sentences = 2 ∧ tot.tokens = 5 := by
  have hU : ∀ w ∈ U, Spec.Recognised (TextExample.mphf3 U) U w := fun w hw => .inl hw
  have hsub : ∀ f ∈ MphProbExample.data, ∀ r ∈ f, ∀ w ∈ r.1, w ∈ U := by decide
  have hP : ∀ g, Spec.Listed MphProbExample.data g → Spec.PefScorable (TextExample.mphf3 U) U MphProbExample.data 1 g := by
    rintro g hg
    refine ⟨fun w hw => hU w ?_, fun x s _ _ _ hn _ => absurd hg hn⟩
    obtain ⟨f, hf, r, hr, rfl⟩ := hg
    exact hsub f hf r hr w hw
  obtain ⟨t, qp, qb, e1, -, h⟩ := C50_pef_backoff_trie 0 0 good fb8 sortQ_ok (-1000) (-100) (-100) lists data_words
    MphProbExample.data_trie data_pef MphProbExample.data_input.quant (by decide) input8.floats codes8 unk8
    (TextExample.built3 (keys := U) rfl (by decide)) voc_read
    (junkU := fun _ => [7]) (junkD := fun _ => [9]) (junk := fun _ => [0#64]) (junkU' := fun _ => [1, 5]) (junkD' := fun _ => [3])
    (junk' := fun _ => [4#64]) (by simp) (by simp) (by simp) (by simp) (by simp) (by simp)
    (jr := cvJunk) (by simp [cvJunk, CompactVector.Fits]) ptrs_fits 9#8
  obtain ⟨t1, g1, t2, g2, h2⟩ := h _ rfl 1 [(0, some (MphProbExample.w 2)), (0, some (MphProbExample.w 0))] 7 1 (by decide) (by
    simp only [Spec.SessionGrams]
    refine ⟨fun k h1 h2 => ?_, fun k h1 h2 => ?_, trivial⟩
    · obtain rfl : k = 1 := by simp at h2; omega
      exact hP _ ⟨_, List.mem_of_getElem? (i := 0) rfl, _, List.mem_of_getElem? (i := 2) rfl, rfl⟩
    · obtain rfl | rfl : k = 1 ∨ k = 2 := by simp at h2; omega
      · exact hP _ ⟨_, List.mem_of_getElem? (i := 0) rfl, _, List.mem_of_getElem? (i := 0) rfl, rfl⟩
      · exact hP _ ⟨_, List.mem_of_getElem? (i := 1) rfl, _, List.mem_of_getElem? (i := 1) rfl, rfl⟩)
  obtain ⟨t3, g3⟩ := h2 corpus 0 0 (fun l hl => ⟨(corpus_words l hl).1, fun w hw => ((corpus_words l hl).2 w hw).1⟩)
    (fun l hl g hg => hP _ (corpus_listed l hl g hg))
  exact ⟨t, e1, t1, _, g1, t2, _, g2, t3, _, g3, rfl, rfl⟩

end PefEndExample

end Tongrams
