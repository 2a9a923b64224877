import Mathlib.Data.List.Sort
import Mathlib.Data.List.Forall2
import Verif.PefEndToEnd
import Verif.EndToEnd
import Verif.MphSession

/-!
# The choice of the data structure does not change the answers (C64)

The same ARPA file, or the same files of counts, can be given to `build_mph` (with 4 or 8 bytes of hash key, in any order of the lines) and to
`build_trie` (sorted; with Elias-Fano or partitioned Elias-Fano sequences, with or without remapping).  Here: all these models give the same answers.
-/

set_option linter.unusedSectionVars false

namespace Tongrams

/-- Specification: the same sections, with the lines of each in any order. -/
def Spec.SameLines {R : Type} (data data' : List (List R)) : Prop := List.Forall₂ List.Perm data data'

namespace Choice

section
variable {R : Type}

theorem length_eq {data data' : List (List R)} (h : Spec.SameLines data data') : data.length = data'.length := List.Forall₂.length_eq h

theorem get {data data' : List (List R)} (h : Spec.SameLines data data') (k : Nat) : (data.getD k []).Perm (data'.getD k []) := by
  induction h generalizing k with
  | nil => simp
  | cons h1 _ ih => cases k with
    | zero => simpa using h1
    | succ k => simpa using ih k

theorem get? {data data' : List (List R)} (h : Spec.SameLines data data') {k : Nat} {f' : List R} (hf : data'[k]? = some f') :
    ∃ f, data[k]? = some f ∧ f.Perm f' := by
  obtain ⟨hk, rfl⟩ := List.getElem?_eq_some_iff.1 hf
  have := get h k
  have hk' : k < data.length := by rw [length_eq h]; exact hk
  refine ⟨data[k], List.getElem?_eq_getElem hk', ?_⟩
  simpa [List.getD_eq_getElem?_getD, List.getElem?_eq_getElem hk, List.getElem?_eq_getElem hk'] using this

theorem mem {data data' : List (List R)} (h : Spec.SameLines data data') {f' : List R} (hf : f' ∈ data') : ∃ f ∈ data, f.Perm f' := by
  obtain ⟨k, hk⟩ := List.getElem?_of_mem hf
  obtain ⟨f, h1, h2⟩ := get? h hk
  exact ⟨f, List.mem_of_getElem? h1, h2⟩

theorem tail {data data' : List (List R)} (h : Spec.SameLines data data') : Spec.SameLines data.tail data'.tail := by
  cases h with
  | nil => exact .nil
  | cons _ h => exact h

theorem dropLast {data data' : List (List R)} (h : Spec.SameLines data data') : Spec.SameLines data.dropLast data'.dropLast := by
  induction h with
  | nil => exact .nil
  | cons h1 h2 ih =>
    cases h2 with
    | nil => exact .nil
    | cons h3 h4 => exact .cons h1 ih

end

section
variable {K F : Type} [DecidableEq K] [FloatArith F]

/-- Sorting forgets the order of the values. -/
theorem sort_eq {sort : List F → List F} (hsort : ∀ l, (sort l).Perm l ∧ (sort l).Pairwise (· ≤ ·)) {l l' : List F} (h : l.Perm l') :
    sort l = sort l' :=
  List.Perm.eq_of_pairwise (fun _ _ _ _ h1 h2 => le_antisymm h1 h2) (hsort l).2 (hsort l').2 ((hsort l).1.trans (h.trans (hsort l').1.symm))

theorem mapM_same {R β : Type} {g : List R → Res β} (hg : ∀ a b : List R, a.Perm b → g a = g b) {d d' : List (List R)} (h : Spec.SameLines d d') :
    Res.mapM g d = Res.mapM g d' := by
  induction h with
  | nil => rfl
  | cons h1 _ ih => rw [Res.mapM, Res.mapM, hg _ _ h1, ih]

/-- The codebooks do not depend on the order of the lines. -/
theorem codebooks_same {sort : List F → List F} (hsort : ∀ l, (sort l).Perm l ∧ (sort l).Pairwise (· ≤ ·)) (negInf : F) (pb bb : Nat)
    {data data' : List (List (List K × F × F))} (h : Spec.SameLines data data') :
    Quant.codebooks sort negInf pb bb data = Quant.codebooks sort negInf pb bb data' := by
  unfold Quant.codebooks
  rw [mapM_same (g := fun f : List (List K × F × F) => Quant.buildProbs sort negInf (f.map (·.2.1)) pb) (by
      intro a b hab
      unfold Quant.buildProbs
      rw [sort_eq hsort (hab.map _), (hab.map _).length_eq]) (tail h),
    mapM_same (g := fun f : List (List K × F × F) => Quant.buildBackoffs sort negInf ((f.map (·.2.2)).filter (fun b => decide (b ≠ 0))) bb) (by
      intro a b hab
      unfold Quant.buildBackoffs
      rw [sort_eq hsort ((hab.map _).filter _), ((hab.map _).filter _).length_eq]) (dropLast (tail h))]

theorem quantisable_same {pb bb : Nat} {data data' : List (List (List K × F × F))} (h : Spec.SameLines data data')
    (hq : Spec.Quantisable data pb bb) : Spec.Quantisable data' pb bb where
  probs := hq.probs
  backoffs := hq.backoffs
  probs_size f hf := by
    obtain ⟨f0, h0, hp⟩ := mem (tail h) hf
    rw [← hp.length_eq]; exact hq.probs_size f0 h0
  backoffs_size f hf := by
    obtain ⟨f0, h0, hp⟩ := mem (dropLast (tail h)) hf
    rw [← ((hp.map _).filter _).length_eq]; exact hq.backoffs_size f0 h0
  probs_bins f hf := by
    obtain ⟨f0, h0, hp⟩ := mem (tail h) hf
    rw [← hp.length_eq]; exact hq.probs_bins f0 h0
  backoffs_bins f hf := by
    obtain ⟨f0, h0, hp⟩ := mem (dropLast (tail h)) hf
    rw [← ((hp.map _).filter _).length_eq]; exact hq.backoffs_bins f0 h0

/-- Looking a key up in a list of distinct keys does not depend on the order of the list. -/
theorem find_same {R : Type} {key : R → List K} {a b : List R} (h : a.Perm b) (hd : (a.map key).Nodup) (g : List K) :
    a.find? (fun r => decide (key r = g)) = b.find? (fun r => decide (key r = g)) := by
  have hd' : (b.map key).Nodup := (h.map key).nodup_iff.1 hd
  have inj : ∀ {l : List R}, (l.map key).Nodup → ∀ x ∈ l, ∀ y ∈ l, key x = key y → x = y := by
    intro l hl
    exact fun x hx y hy e => List.inj_on_of_nodup_map hl hx hy e
  cases ha : a.find? (fun r => decide (key r = g)) with
  | none =>
    symm
    rw [List.find?_eq_none] at ha ⊢
    exact fun x hx => ha x (h.mem_iff.2 hx)
  | some r =>
    have r1 := List.mem_of_find?_eq_some ha
    have r2 := List.find?_some ha
    cases hb : b.find? (fun r => decide (key r = g)) with
    | none =>
      rw [List.find?_eq_none] at hb
      exact absurd r2 (hb r (h.mem_iff.1 r1))
    | some s =>
      have s1 := List.mem_of_find?_eq_some hb
      have s2 := List.find?_some hb
      rw [decide_eq_true_iff] at r2 s2
      rw [inj hd' r (h.mem_iff.1 r1) s s1 (r2.trans s2.symm)]

/-- The ARPA model does not depend on the order of the lines. -/
theorem arpa_same {data data' : List (List (List K × F × F))} (h : Spec.SameLines data data') (hd : ∀ f ∈ data, (f.map (·.1)).Nodup) (unk : F)
    (qp qb : Nat → F → F) : Spec.Arpa.ofData data unk qp qb = Spec.Arpa.ofData data' unk qp qb := by
  have hg : ∀ k, ((data.getD k []).map (·.1)).Nodup := by
    intro k
    rw [List.getD_eq_getElem?_getD]
    cases hk : data[k]? with
    | none => simp
    | some f => exact hd f (List.mem_of_getElem? hk)
  unfold Spec.Arpa.ofData
  rw [length_eq h]
  congr 1
  funext g
  split
  · rfl
  · rw [find_same (key := fun r : List K × F × F => r.1) (get h _) (hg _)]

theorem unk_same {data data' : List (List (List K × F × F))} (h : Spec.SameLines data data') (hd : ∀ f ∈ data, (f.map (·.1)).Nodup) (unkWord : K)
    (default unk : F) : Spec.unkProb unkWord default (data.getD 0 []) unk = Spec.unkProb unkWord default (data'.getD 0 []) unk := by
  unfold Spec.unkProb
  have hg : ((data.getD 0 []).map (·.1)).Nodup := by
    rw [List.getD_eq_getElem?_getD]
    cases hk : data[0]? with
    | none => simp
    | some f => exact hd f (List.mem_of_getElem? hk)
  rw [find_same (key := fun r : List K × F × F => r.1) (get h 0) hg]

end

end Choice

section
variable {F : Type} [FloatArith F]

/-- **C64** (backoff models).  Take ARPA sections `data` and quantisation parameters the builders accept.  There is one ARPA model (the file's, with its
values quantised) such that every model built from *any* ARPA file with the lines of `data`, in any order the builder accepts, makes `score` report for every
corpus the totals of that one ARPA model: hash models with keys of 4 or 8 bytes, tries of `fast_ef_sequence` and tries of `uniform_pef_sequence`, with any
remapping order, whatever hash functions were found.  The hypotheses are those of C46 and C55 about each of the structures. -/
theorem C64_score_does_not_depend_on_the_structure (fb : FloatBits F) {sort : List F → List F}
    (hsort : ∀ l, (sort l).Perm l ∧ (sort l).Pairwise (· ≤ ·)) (negInf default unk : F) {pb bb : Nat}
    {data : List (List (List (List Byte) × F × F))} (h : Spec.ArpaFiles data) (hq : Spec.Quantisable data pb bb) :
    ∃ qp qb, Spec.Quantised data pb bb qp qb ∧
    ∀ A, A = Spec.Arpa.ofData data (Spec.unkProb Spec.unkText default (data.getD 0 []) unk) qp qb →
    ∀ (strtod : List Byte → F × Nat) (lead gap : Nat) (sections : List (List (Spec.ArpaLine F) × Nat)) (tail : List Byte)
      (data' : List (List (List (List Byte) × F × F))),
      Spec.GoodArpa strtod sections tail → Spec.ArpaLists sections data' → Spec.SameLines data data' →
      (∀ (B mem extra : Nat) (hs : Nat → Mphf (List Byte) B), Spec.MphProbInput fb mem pb bb hs data' →
        ∃ m, MphProb.buildArpa strtod fb sort negInf default unk mem extra hs pb bb sections.length (Spec.arpaText lead gap sections tail) = some (.ok m) ∧
          ∀ (text : List (List (List Byte))) (d : Nat) (one : F), (∀ l ∈ text, l ≠ [] ∧ ∀ w ∈ l, Spec.IsWord w) →
            (∀ l ∈ text, Spec.GramsRecognised hs data' l) →
            (m.scorer fb (textOf text)).scoreText id d one (textOf text) = some (A.corpus text)) ∧
      (∀ (U : List (List Byte)) (ro : Nat) (hv : Mphf (List Byte) 64), Spec.ProbFiles U data' ro → hv.BuiltFrom U → pb + bb ≤ 58 →
        (∀ f ∈ data', ∀ r ∈ f, ∀ w ∈ r.1, w ≠ [] ∧ sp ∉ w) →
        (∀ f0, data'[0]? = some f0 → ∀ r ∈ f0, fb.dec (fb.enc r.2.1) = r.2.1 ∧ fb.dec (fb.enc r.2.2) = r.2.2) →
        ∀ junk : Nat → List W, (∀ k, junk k ≠ []) →
        (∀ hr : Nat → Mphf Nat 64, Spec.RangeHashes hr (TrieProb.asCounts data') →
          ∃ t, TrieProb.buildArpa strtod fb sort negInf default hv (GramsImpl.fastEF hr) (RanksImpl.cv junk) ro unk pb bb sections.length
              (Spec.arpaText lead gap sections tail) = some (.ok t) ∧
            ∀ (text : List (List (List Byte))) (d : Nat) (one : F), (∀ l ∈ text, l ≠ [] ∧ ∀ w ∈ l, Spec.IsWord w ∧ Spec.Recognised hv U w) →
              (t.scorer fb).scoreText (slice (textOf text)) d one (textOf text) = some (A.corpus text)) ∧
        (∀ junkU junkD : Nat → List W, (∀ k, junkU k ≠ []) → (∀ k, junkD k ≠ []) → Spec.PefFiles U (TrieProb.asCounts data') ro →
          ∃ t, StProb.buildArpa strtod fb sort negInf default hv (GramsSt.pef junkU junkD) (RanksImpl.cv junk).st ro unk pb bb sections.length
              (Spec.arpaText lead gap sections tail) = some (.ok t) ∧
            ∀ (text : List (List (List Byte))) (d : Nat) (one : F), (∀ l ∈ text, l ≠ [] ∧ ∀ w ∈ l, Spec.IsWord w) →
              (∀ l ∈ text, ∀ g, Scorer.Occurs l g → Spec.PefScorable hv U data' ro g.reverse) →
              ∃ t', t.scoreText fb d one (textOf text) = some (A.corpus text, t'))) := by
  obtain ⟨ps, bs, e1, -, e3⟩ := Quant.codebooks_ok hsort negInf h.order_min hq
  refine ⟨_, _, e3, ?_⟩
  rintro A rfl strtod lead gap sections tail data' hg hd hsame
  have hq' := Choice.quantisable_same hsame hq
  have e1' := e1
  rw [Choice.codebooks_same hsort negInf pb bb hsame] at e1'
  have hc : Quant.Codes data' pb bb ps bs := by
    obtain ⟨ps', bs', c1, c2, -⟩ := Quant.codebooks_ok hsort negInf (data := data') (by rw [← Choice.length_eq hsame]; exact h.order_min) hq'
    rw [e1'] at c1
    obtain ⟨rfl, rfl⟩ := Prod.mk.inj (Except.ok.inj (Option.some.inj c1))
    exact c2
  have hdist : ∀ f ∈ data, (f.map (·.1)).Nodup := h.distinct
  rw [Choice.arpa_same hsame hdist, Choice.unk_same hsame hdist]
  constructor
  · intro B mem extra hs hm
    obtain ⟨m, A, g1, rfl, wf, hI⟩ := MphProb.correct fb (sort := sort) negInf default unk extra hm e1' hc
    refine ⟨m, by unfold MphProb.buildArpa; rw [arpaSections_ok lead gap hg hd, Res.bind_ok, g1], fun text d one hw hrec => ?_⟩
    obtain ⟨I⟩ := hI (textOf text)
    have hat : At (textOf text) 0 (textOf text) := by unfold At; simp
    refine ((Scorer.text_spec (key := id) (f := slice (textOf text)) (fun _ => rfl) I wf d one).1 text rfl hw ?_).1
    intro l hl g hg
    rw [List.map_id] at hg
    obtain ⟨i, hi⟩ := List.getElem?_of_mem hl
    obtain ⟨l', o, g1, rfl, g3⟩ := at_lines hat hi
    have hl' := List.mem_of_getElem? g1
    exact occurs_isGram g3 (hw l' hl').2 (hrec l' hl') hg
  · intro U ro hv hp hb hbits hwords hfb junk hj
    have hd0 : data'[0]? = some (data'.getD 0 []) := by
      rw [List.getD_eq_getElem?_getD, List.getElem?_eq_getElem (by have := hp.arpa.order_min; omega)]; rfl
    constructor
    · intro hr hh
      obtain ⟨t, f1, f2, f3⟩ := TrieProb.build_ok fb negInf unkBytes default unk hp hb hh hj hbits e1' hc
      refine ⟨t, by rw [TrieProb.buildArpa_eq lead gap hg fb sort negInf default unk ro pb bb hd hwords hp.arpa, f1], ?_⟩
      intro text d one hV
      rw [← unkBytes_eq, ← findUnk_spec unkBytes default _ unk (hp.arpa.distinct _ (List.mem_of_getElem? hd0)), ← f3 _ hd0]
      have I := TrieProb.implements_all hfb hp f2 hc
      rw [← Spec.Arpa.comap_id (Spec.Arpa.ofData data' _ _ _)] at I
      have hat : At (textOf text) 0 (textOf text) := by unfold At; simp
      refine ((Scorer.text_spec (key := slice (textOf text)) (f := id) (fun _ => rfl) I (ArpaData.wellFormed data' _ _ _ hp.arpa) d one).1 text rfl
        (fun l hl => ⟨(hV l hl).1, fun w hw => ((hV l hl).2 w hw).1⟩) ?_).1
      intro l hl g hg w hw
      obtain ⟨i, hi⟩ := List.getElem?_of_mem hl
      obtain ⟨l', o, g1, rfl, g3⟩ := at_lines hat hi
      have := occurs_mem hg w hw
      rw [slices_wordRanges g3] at this
      exact ((hV l' (List.mem_of_getElem? g1)).2 w this).2
    · intro junkU junkD hu hjd hpef
      obtain ⟨t, f1, f2, f3⟩ := TrieProb.build_grams fb negInf unkBytes default unk hp hb (G := PefTrie.ideal)
        (ex := PefTrie.ClearAt U (data'.map (·.map (·.1.reverse))) ro)
        (fun k prev curr h1 h2 => by
          have := PefTrie.grams_exact (TrieProb.asCounts_ok hp) hpef k prev curr
          rw [TrieProb.asCounts_map] at this
          exact this h1 h2) hj hbits e1' hc
      obtain ⟨t', b1, hs⟩ := StProb.build_sim (G := GramsSt.pef junkU junkD) (R := (RanksImpl.cv junk).st) (PefTrie.pef_implements hu hjd)
        (RanksImpl.st_implements _) f1
      refine ⟨t', by rw [StProb.buildArpa_eq lead gap hg fb sort negInf default unk ro pb bb hd hwords hp.arpa, b1], ?_⟩
      intro text d one hw hV
      rw [← unkBytes_eq, ← findUnk_spec unkBytes default _ unk (hp.arpa.distinct _ (List.mem_of_getElem? hd0)), ← f3 _ hd0]
      have hI : Scorer.Implements (t.scorer fb) _ (fun g => Spec.PefScorable hv U data' ro g.reverse) _ :=
        (TrieProb.implements hfb hp f2 hc).weaken fun g hg => ⟨fun w hw => hg.words w (List.mem_reverse.2 hw), StProb.clear_of hp.arpa hg⟩
      have hwf := ArpaData.wellFormed data' t.unk (Quant.quantiser ps 0) (Quant.quantiser bs 1) hp.arpa
      obtain ⟨t'', g1, -⟩ := hs.scoreCorpus (Scorer.scoreCorpus_eq hI hwf d one text (fun ws hws g hg => hV ws hws g hg))
      exact ⟨t'', StProb.scoreText_ok hw g1⟩

end

/-- **C64** (count models).  From files of counts with the same lines, in any order the builders accept, hash models with keys of 4 or 8 bytes, tries of
`fast_ef_sequence` and tries of `uniform_pef_sequence`, with every way of storing counts and every remapping order, return the same count for each listed n-gram. -/
theorem C64_counts_do_not_depend_on_the_structure {L : SortLib} (hL : L.Valid) {files files1 files2 : List (List (List (List Byte) × Nat))}
    (hs1 : Spec.SameLines files files1) (hs2 : Spec.SameLines files files2)
    {B mem extra : Nat} (h : Spec.CountLists mem files) (hB : B = 64 ∨ (B = 32 ∧ ∀ f ∈ files, f.length < 2 ^ 26)) (hn : ∀ f ∈ files, f.length < 2 ^ 57)
    {hs : Nat → Mphf (List Byte) B}
    (hbs : ∀ (k : Nat) (f : List (List (List Byte) × Nat)), files[k]? = some f → (hs k).BuiltFrom (f.map fun r => joinSp r.1))
    {U1 U2 : List (List Byte)} {ro1 ro2 : Nat} (h1 : Spec.CountFiles U1 files1 ro1) {hv1 hv2 : Mphf (List Byte) 64} (hb1 : hv1.BuiltFrom U1)
    {hr : Nat → Mphf Nat 64} (hh : Spec.RangeHashes hr files1) (cr : CountRanks) (hcr : cr = .psef → ∀ f ∈ files1, f.length < 2 ^ 32)
    (h2 : Spec.CountFiles U2 files2 ro2) (hp2 : Spec.PefFiles U2 files2 ro2) (hb2 : hv2.BuiltFrom U2)
    {junkU junkD : Nat → List W} (hu : ∀ k, junkU k ≠ []) (hj : ∀ k, junkD k ≠ []) (pr : PefRanks) (hpr : ∀ f ∈ files2, f.length < pr.maxLines) :
    ∃ m t p, MphCount.build L mem extra hs (Spec.lines files) = some (.ok m) ∧
      TrieCount.build L hv1 (GramsImpl.fastEF hr) cr.impl ro1 files1 = some (.ok t) ∧
      StCount.build L hv2 (GramsSt.pef junkU junkD) (pr.impl junkU junkD) ro2 files2 = some (.ok p) ∧
      ∀ grams : List (List (List Byte)), (∀ g ∈ grams, ∃ f ∈ files, g ∈ f.map (·.1)) →
        ∃ counts, grams.mapM (fun g => m.lookup (joinSp g)) = some counts ∧ grams.mapM t.lookup = some counts ∧
          ∃ p', p.lookups grams = some (counts, p') := by
  obtain ⟨m, m1, m2⟩ := C26_stored_gram_returns_its_count (extra := extra) hL h hB hn hbs
  obtain ⟨t, t1, t2⟩ := C24_stored_gram_returns_its_count hL h1 hb1 hh cr hcr
  obtain ⟨p, p1, p2⟩ := C49_pef_trie_returns_counts hL h2 hp2 hb2 hu hj pr hpr
  refine ⟨m, t, p, m1, t1, p1, ?_⟩
  intro grams hg
  have hfind : ∃ session : List (List (List Byte) × Nat), session.map (·.1) = grams ∧ ∀ r ∈ session, ∃ f ∈ files, r ∈ f := by
    clear m2 t2 p2
    induction grams with
    | nil => exact ⟨[], rfl, by simp⟩
    | cons g gs ih =>
      obtain ⟨s, s1, s2⟩ := ih (fun x hx => hg x (List.mem_cons_of_mem _ hx))
      obtain ⟨f, hf, hgf⟩ := hg g List.mem_cons_self
      obtain ⟨r, hr, rfl⟩ := List.mem_map.1 hgf
      refine ⟨r :: s, by rw [List.map_cons, s1], ?_⟩
      intro x hx
      rcases List.mem_cons.1 hx with rfl | hx
      · exact ⟨f, hf, hr⟩
      · exact s2 x hx
  obtain ⟨session, rfl, hsess⟩ := hfind
  have hin : ∀ {fs : List (List (List (List Byte) × Nat))}, Spec.SameLines files fs → ∀ r ∈ session, ∃ f ∈ fs, r ∈ f := by
    intro fs hsame r hr
    obtain ⟨f, hf, hrf⟩ := hsess r hr
    obtain ⟨k, hk⟩ := List.getElem?_of_mem hf
    have hk' : k < fs.length := by rw [← Choice.length_eq hsame]; exact (List.getElem?_eq_some_iff.1 hk).1
    obtain ⟨f0, e0, hp⟩ := Choice.get? hsame (List.getElem?_eq_getElem hk')
    rw [hk] at e0; cases e0
    exact ⟨fs[k], List.getElem_mem _, hp.mem_iff.1 hrf⟩
  have hmap : ∀ {g : List (List Byte) → Option Nat}, (∀ r ∈ session, g r.1 = some r.2) → (session.map (·.1)).mapM g = some (session.map (·.2)) := by
    intro g hgr
    clear hsess hin hg
    induction session with
    | nil => rfl
    | cons r rs ih =>
      rw [List.map_cons, List.mapM_cons, hgr r List.mem_cons_self, ih (fun x hx => hgr x (List.mem_cons_of_mem _ hx))]
      rfl
  refine ⟨session.map (·.2), hmap (fun r hr => ?_), hmap (fun r hr => ?_), ?_⟩
  · obtain ⟨f, hf, hrf⟩ := hsess r hr
    exact m2 f hf r.1 r.2 hrf
  · obtain ⟨f, hf, hrf⟩ := hin hs1 r hr
    exact t2 f hf r.1 r.2 hrf
  · exact p2 session fun r hr => .inl (hin hs2 r hr)


theorem Choice.arpaFiles_same {K F : Type} {data data' : List (List (List K × F × F))} (h : Spec.SameLines data data') (ha : Spec.ArpaFiles data) :
    Spec.ArpaFiles data' where
  order_min := by rw [← Choice.length_eq h]; exact ha.order_min
  order_max := by rw [← Choice.length_eq h]; exact ha.order_max
  len k f' hf r hr := by
    obtain ⟨f, e, hp⟩ := Choice.get? h hf
    exact ha.len k f e r (hp.mem_iff.2 hr)
  distinct f' hf := by
    obtain ⟨f, e, hp⟩ := Choice.mem h hf
    exact (hp.map _).nodup_iff.1 (ha.distinct f e)
  nonempty f' hf := by
    obtain ⟨f, e, hp⟩ := Choice.mem h hf
    intro he
    rw [he] at hp
    exact ha.nonempty f e hp.eq_nil
  suffixes k f' g' hf hg r hr := by
    obtain ⟨f, e, hp⟩ := Choice.get? h hf
    obtain ⟨g, e', hp'⟩ := Choice.get? h hg
    exact (hp.map _).mem_iff.1 (ha.suffixes k f g e e' r (hp'.mem_iff.2 hr))
  prefixes k f' g' hf hg r hr := by
    obtain ⟨f, e, hp⟩ := Choice.get? h hf
    obtain ⟨g, e', hp'⟩ := Choice.get? h hg
    exact (hp.map _).mem_iff.1 (ha.prefixes k f g e e' r (hp'.mem_iff.2 hr))

namespace ChoiceExample
open FilesExample TrieProbExample EndExample

theorem reversed {R : Type} (data : List (List R)) : Spec.SameLines (data.map List.reverse) data := by
  induction data with
  | nil => exact .nil
  | cons f fs ih => exact .cons (List.reverse_perm f) ih

theorem reversed' {R : Type} (data : List (List R)) : Spec.SameLines data (data.map List.reverse) := by
  induction data with
  | nil => exact .nil
  | cons f fs ih => exact .cons (List.reverse_perm f).symm ih

/-- A hash model, a trie of `fast_ef_sequence` and a trie of `uniform_pef_sequence` built from the ARPA file of C44's example, whose sections list the
lines of `MphProbExample.data` (here taken backwards), report the same totals for the corpus "a b\nc a b\n". -/
example : ∃ m t p, ∃ tot : Totals ℚ,
    MphProb.buildArpa strtod fbQ sortQ (-1000) (-100) (-100) 200 0 MphProbExample.hs 2 2 3 (Spec.arpaText 0 0 sections [nl]) = some (.ok m) ∧
    TrieProb.buildArpa strtod fbQ sortQ (-1000) (-100) (TextExample.mphf3 U) (GramsImpl.fastEF fun _ => FastEF.exMphf) (RanksImpl.cv fun _ => [0#64]) 1 (-100) 2 2 3
      (Spec.arpaText 0 0 sections [nl]) = some (.ok t) ∧
    StProb.buildArpa strtod fbQ sortQ (-1000) (-100) (TextExample.mphf3 U) (GramsSt.pef (fun _ => [7]) fun _ => [9]) (RanksImpl.cv fun _ => [0#64]).st 1 (-100) 2 2 3
      (Spec.arpaText 0 0 sections [nl]) = some (.ok p) ∧
    (m.scorer fbQ (textOf corpus)).scoreText id 7 0 (textOf corpus) = some tot ∧
    (t.scorer fbQ).scoreText (slice (textOf corpus)) 8 0 (textOf corpus) = some tot ∧
    ∃ p', p.scoreText fbQ 9 0 (textOf corpus) = some (tot, p') := by
  have hU : ∀ w ∈ U, Spec.Recognised (TextExample.mphf3 U) U w := fun w hw => .inl hw
  have hsub : ∀ f ∈ MphProbExample.data, ∀ r ∈ f, ∀ w ∈ r.1, w ∈ U := by decide
  have hP : ∀ g, Spec.Listed MphProbExample.data g → Spec.PefScorable (TextExample.mphf3 U) U MphProbExample.data 1 g := by
    rintro g hg
    refine ⟨fun w hw => hU w ?_, fun x s _ _ _ hn _ => absurd hg hn⟩
    obtain ⟨f, hf, r, hr, rfl⟩ := hg
    exact hsub f hf r hr w hw
  obtain ⟨qp, qb, -, h⟩ := C64_score_does_not_depend_on_the_structure fbQ sortQ_ok (-1000) (-100) (-100) (pb := 2) (bb := 2)
    (data := MphProbExample.data.map List.reverse) (Choice.arpaFiles_same (reversed' _) MphProbExample.data_input.arpa)
    (Choice.quantisable_same (reversed' _) MphProbExample.data_input.quant)
  obtain ⟨h1, h2⟩ := h _ rfl strtod 0 0 sections [nl] MphProbExample.data good lists (reversed _)
  obtain ⟨m, m1, m2⟩ := h1 64 200 0 MphProbExample.hs MphProbExample.data_input
  obtain ⟨h3, h4⟩ := h2 U 1 (TextExample.mphf3 U) MphProbExample.data_trie (TextExample.built3 (keys := U) rfl (by decide)) (by decide) data_words
    MphProbExample.data_input.floats (fun _ => [0#64]) (by simp)
  obtain ⟨t, t1, t2⟩ := h3 (fun _ => FastEF.exMphf) MphProbExample.data_hashes
  obtain ⟨p, p1, p2⟩ := h4 (fun _ => [7]) (fun _ => [9]) (by simp) (by simp) PefEndExample.data_pef
  have hw : ∀ l ∈ corpus, l ≠ [] ∧ ∀ w ∈ l, Spec.IsWord w := fun l hl => ⟨(corpus_words l hl).1, fun w hw => ((corpus_words l hl).2 w hw).1⟩
  obtain ⟨p', e⟩ := p2 corpus 9 0 hw (fun l hl g hg => hP _ (PefEndExample.corpus_listed l hl g hg))
  exact ⟨m, t, p, _, m1, t1, p1, m2 corpus 7 0 hw fun l _ => MphProbExample.recognised l, t2 corpus 8 0 corpus_words, p', e⟩

/-- The hash model, the trie without remapping and the `uniform_pef` trie of the same small files. -/
example := C64_counts_do_not_depend_on_the_structure exLib_valid (files := MphCountExample.files) (files1 := MphCountExample.files) (files2 := MphCountExample.files)
  (List.forall₂_same.2 fun _ _ => List.Perm.refl _)
  (List.forall₂_same.2 fun _ _ => List.Perm.refl _) (extra := 0) MphCountExample.files_ok (.inl rfl) (by simp [MphCountExample.files]) MphCountExample.hs_built
  files_trie (TextExample.built3 (keys := U) rfl (by decide)) files_hashes .ic (by simp) files_trie CheckExample.files_pef
  (TextExample.built3 (keys := U) rfl (by decide)) (junkU := fun _ => [7]) (junkD := fun _ => [9]) (by simp) (by simp) (.pspef true)
  (by simp [MphCountExample.files, PefRanks.maxLines])

end ChoiceExample

end Tongrams
