import Verif.PefTrie
import Verif.TrieProb

/-!
# Backoff tries over `uniform_pef_sequence`

`pef_trie_prob_lm` and `pef_rtrie_prob_lm` (lm_types.hpp): `trie_prob_lm` with `pef::uniform_pef_sequence` for the grams.  The enumerator that
answers the searches is a member of the sequence, so `score` changes the model, and two states used alternately on one model share it.  The
functions of `Verif.Score` and `Verif.TrieProb` are modelled again with the arrays of the trie threaded through every call (`Verif.StTrie`).
-/

set_option linter.unusedSectionVars false

namespace Tongrams

/-- The model-specific parts of `score`, as in `Scorer`, where looking up changes the arrays. -/
structure StScorer (G : GramsSt) (R : RanksSt) (K Wd F C : Type) where
  order : Nat
  unk : F
  first : K → St G R (Wd × Option (F × F × C))
  next : Nat → C → Wd → St G R (Option (F × Option F × C))

namespace StScorer
variable {G : GramsSt} {R : RanksSt} {K Wd F C : Type} [LogProb F]

/-- The `for (; order_m1 <= state.length; ++order_m1, ++words_rbegin)` loop (score.hpp:38-83); see `Scorer.loop`. -/
def loop (S : StScorer G R K Wd F C) : Nat → Scorer.Loop Wd F C → St G R (Scorer.Loop Wd F C)
  | 0, s => St.pure s
  | n + 1, s =>
    St.bind (St.lift (s.st.advance.words.deref s.it)) fun x =>
    St.bind (S.next s.orderM1 s.cur x) fun
    | none => St.pure { s with st := s.st.advance }
    | some (p, some b, c) =>
      St.bind (St.lift (s.st.advance.addBackoff b)) fun st =>
      loop S n { st := st, it := st.words.rnext s.it, cur := c, prob := p,
                 longest := if LogProb.nz b then s.orderM1 + 1 else s.longest, orderM1 := s.orderM1 + 1 }
    | some (p, none, c) =>
      loop S n { st := s.st.advance, it := s.st.advance.words.rnext s.it, cur := c, prob := p, longest := s.longest,
                 orderM1 := s.orderM1 + 1 }

/-- `score(state, word, is_OOV)` (score.hpp:8-102); see `Scorer.score`. -/
def score (S : StScorer G R K Wd F C) (st : PState Wd F) (k : K) : St G R (PState Wd F × F × Bool) :=
  St.bind (S.first k) fun r =>
  St.bind (St.lift (st.addWord r.1)) fun st =>
  match r.2 with
  | some (p, b, c) =>
    St.bind (St.lift (st.addBackoff b)) fun st =>
    St.bind (S.loop st.length { st := st, it := st.words.rnext st.words.rbegin, cur := c, prob := p,
                                longest := if LogProb.nz b then 1 else 0, orderM1 := 1 }) fun l =>
    St.bind (St.lift (Scorer.addBackoffs l.st (l.st.length - (l.orderM1 - 1)) (l.orderM1 - 1) l.prob)) fun prob =>
    St.pure ({ l.st with length := l.longest }.finalize, prob, false)
  | none =>
    St.bind (St.lift ({ st with oovs := st.oovs + 1 }.addBackoff 0)) fun st =>
    St.bind (St.lift (Scorer.addBackoffs st (st.length - 0) 0 S.unk)) fun prob =>
    St.pure ({ st with length := 0 }.finalize, prob, true)

/-- The loop over the words of one line (score.cpp:42-56); see `Scorer.lineLoop`. -/
def lineLoop (S : StScorer G R K Wd F C) : List K → PState Wd F → F → F → St G R (PState Wd F × F × F)
  | [], st, sum, oov => St.pure (st, sum, oov)
  | k :: ks, st, sum, oov =>
    St.bind (S.score st k) fun r => lineLoop S ks r.1 (sum + r.2.1) (if r.2.2 then oov + r.2.1 else oov)

/-- The loop over the lines of the text (score.cpp:35-66); see `Scorer.corpusLoop`. -/
def corpusLoop (S : StScorer G R K Wd F C) : List (List K) → PState Wd F → Totals F → St G R (PState Wd F × Totals F)
  | [], st, t => St.pure (st, t)
  | l :: ls, st, t =>
    St.bind (St.lift st.init) fun st =>
    St.bind (S.lineLoop l st 0 t.onlyOOVs) fun r =>
    corpusLoop S ls r.1 ⟨t.oovs + r.1.oovs, t.sentences + 1, t.tokens + l.length, t.total + r.2.1, r.2.2⟩

/-- `score_corpus` from a fresh state (score.cpp:31, trie_prob_lm.hpp:227-229). -/
def scoreCorpus (S : StScorer G R K Wd F C) (d : Wd) (one : F) (text : List (List K)) : St G R (Totals F) :=
  St.bind (St.lift (PState.new S.order d one)) fun st =>
  St.bind (S.corpusLoop text st ⟨0, 0, 0, 0, 0⟩) fun r => St.pure r.2

/-- A use of the model through several states (README; python/tongrams.cpp): `(i, some w)` is `score` of the word `w` with the `i`-th state,
`(i, none)` is `init()` of the `i`-th state.  The answers, and the states after. -/
def session (S : StScorer G R K Wd F C) :
    List (Nat × Option K) → List (PState Wd F) → St G R (List (Option (F × Bool)) × List (PState Wd F))
  | [], sts => St.pure ([], sts)
  | (i, o) :: ops, sts =>
    St.bind (St.lift sts[i]?) fun st =>
    St.bind (match o with
      | some w => St.bind (S.score st w) fun r => St.pure (r.1, some r.2)
      | none => St.bind (St.lift st.init) fun st => St.pure (st, none)) fun r =>
    St.bind (session S ops (sts.set i r.1)) fun s => St.pure (r.2 :: s.1, s.2)

end StScorer

/-- `trie_prob_lm` (trie_prob_lm.hpp:353-360) with arrays that queries change; see `TrieProb`. -/
structure StProb (K F : Type) (G : GramsSt) (R : RanksSt) where
  order : Nat
  ro : Nat
  unk : F
  voc : DVTable K 64
  arrs : List (StArray G R)
  ps : List (List F)
  bs : List (List F)
  pb : Nat

namespace StProb
variable {K F : Type} [DecidableEq K] [FloatArith F] {G : GramsSt} {R : RanksSt}

/-- `trie_prob_lm::builder` (trie_prob_lm.hpp:20-108, 139-294); see `TrieProb.build`. -/
def build (fb : FloatBits F) (sort : List F → List F) (negInf : F) (unkWord : K) (default : F) (hv : Mphf K 64) (G : GramsSt)
    (R : RanksSt) (ro : Nat) (unk : F) (pb bb : Nat) (data : List (List (List K × F × F))) : Res (StProb K F G R) :=
  if data.length < 2 ∨ maxOrder < data.length ∨ 2 < ro then some (.error ()) else
  Res.bind (Quant.codebooks sort negInf pb bb data) fun cb =>
  Res.bind (Res.lift data.head?) fun f0 =>
  Res.bind (Res.lift (buildProbVocab fb hv (f0.filterMap (·.1.head?)) (f0.map (·.2)))) fun t =>
  Res.bind (Res.lift (TrieProb.rankLevels cb.1 cb.2 pb data.length 1 data.tail)) fun rks =>
  Res.bind (buildLevelsSt G R (fun w => (t.lookupPair w).map fun p => p.1.toNat) false ro f0.length 1 (f0.map (·.1.reverse))
    ((data.tail.map (·.map (·.1.reverse))).zip (rks.zip ((List.range data.tail.length).map fun i => pb + if i + 2 = data.length then 0 else bb)))
    (data.map fun f => StArray.new f.length)) fun arrs =>
  some (.ok { order := data.length, ro := ro, unk := findUnk unkWord default f0 unk, voc := t, arrs := arrs, ps := cb.1, bs := cb.2, pb := pb })

/-- The parts of `trie_prob_lm::score` (score.hpp:12-82) that are specific to the trie; see `TrieProb.scorer`. -/
def scorer (fb : FloatBits F) (t : StProb K F G R) : StScorer G R K Nat F TrieProb.Cursor where
  order := t.order
  unk := t.unk
  first k := St.bind (St.lift (t.voc.lookupPair k)) fun p =>
    if p.1.toNat = NF then St.pure (NF, none) else
    St.bind (St.range 0 p.1.toNat) fun r =>
      St.pure (p.1.toNat, some (fb.dec (unpack p.2).1, fb.dec (unpack p.2).2, ⟨r, p.1.toNat, p.1.toNat⟩))
  next j c x :=
    if c.range.2 - c.range.1 = 0 then St.pure none else
    St.bind (if t.ro ≠ 0 ∧ t.ro < j then St.mapId t.ro c.prev c.prevPrev x else St.pure x) fun id =>
    St.bind (St.position j c.range id) fun pos =>
    if pos = NF then St.pure none else
    St.bind (St.rank j pos) fun rk =>
    St.bind (St.lift (Quant.accessAt t.ps (j - 1) (rk &&& (2 ^ t.pb - 1)))) fun p =>
    if j ≠ t.order - 1 then
      St.bind (St.lift (Quant.accessAt t.bs (j - 1) (rk >>> t.pb))) fun b => St.bind (St.range j pos) fun r =>
      St.pure (some (p, some b, ⟨r, x, c.prev⟩))
    else St.pure (some (p, none, ⟨c.range, x, c.prev⟩))

/-- Scoring words with `n` states made by `model.state()`, in any order: the answers and the model after. -/
def session (fb : FloatBits F) (t : StProb K F G R) (d : Nat) (one : F) (n : Nat) (ops : List (Nat × Option K)) :
    Option (List (Option (F × Bool)) × StProb K F G R) :=
  (St.bind (St.lift (PState.new t.order d one)) (fun st => (t.scorer fb).session ops (List.replicate n st)) t.arrs).map fun r =>
  (r.1.1, { t with arrs := r.2 })

/-- `score_corpus(model, text)` (score.cpp:20-66): the totals and the model after. -/
def scoreCorpus (fb : FloatBits F) (t : StProb K F G R) (d : Nat) (one : F) (text : List (List K)) : Option (Totals F × StProb K F G R) :=
  ((t.scorer fb).scoreCorpus d one text t.arrs).map fun r => (r.1, { t with arrs := r.2 })

end StProb

/-! ## Refinement -/

namespace Scorer
variable {K Wd F C : Type} [LogProb F]

/-- The session on a model that queries do not change. -/
def session (S : Scorer K Wd F C) : List (Nat × Option K) → List (PState Wd F) → Option (List (Option (F × Bool)) × List (PState Wd F))
  | [], sts => some ([], sts)
  | (i, o) :: ops, sts =>
    sts[i]?.bind fun st =>
    (match o with
      | some w => (S.score st w).bind fun r => some (r.1, some r.2)
      | none => st.init.bind fun st => some (st, none)).bind fun r =>
    (session S ops (sts.set i r.1)).bind fun s => some (r.2 :: s.1, s.2)

end Scorer

section
variable {G : GramsSt} {R : RanksSt} {K Wd F C : Type} [LogProb F] {A : List SortedArray}

/-- Each call of the stateful scorer refines the ideal one. -/
structure StScorer.Sim (A : List SortedArray) (S : Scorer K Wd F C) (S' : StScorer G R K Wd F C) : Prop where
  order : S'.order = S.order
  unk : S'.unk = S.unk
  first : ∀ k, Refines A (S.first k) (S'.first k)
  next : ∀ j c x, Refines A (S.next j c x) (S'.next j c x)

variable {S : Scorer K Wd F C} {S' : StScorer G R K Wd F C}

theorem StScorer.Sim.loop (h : S'.Sim A S) (n : Nat) : ∀ s, Refines A (S.loop n s) (S'.loop n s) := by
  induction n with
  | zero => intro s; exact Refines.pure s
  | succ n ih =>
    intro s
    unfold Scorer.loop StScorer.loop
    refine (Refines.lift _).bind fun x => (h.next _ _ _).bind fun o => ?_
    rcases o with _ | ⟨p, _ | b, c⟩
    · exact Refines.pure _
    · exact ih _
    · exact (Refines.lift _).bind fun st => ih _

theorem StScorer.Sim.score (h : S'.Sim A S) (st : PState Wd F) (k : K) : Refines A (S.score st k) (S'.score st k) := by
  unfold Scorer.score StScorer.score
  refine (h.first k).bind fun r => ?_
  obtain ⟨x, f⟩ := r
  refine (Refines.lift _).bind fun st => ?_
  rcases f with _ | ⟨p, b, c⟩
  · refine (Refines.lift _).bind fun st => ?_
    rw [h.unk]
    exact (Refines.lift _).bind fun prob => Refines.pure _
  · refine (Refines.lift _).bind fun st => ?_
    exact (h.loop _ _).bind fun l => (Refines.lift _).bind fun prob => Refines.pure _

theorem StScorer.Sim.lineLoop (h : S'.Sim A S) (ks : List K) : ∀ st sum oov, Refines A (S.lineLoop ks st sum oov) (S'.lineLoop ks st sum oov) := by
  induction ks with
  | nil => intro st sum oov; exact Refines.pure _
  | cons k ks ih =>
    intro st sum oov
    unfold Scorer.lineLoop StScorer.lineLoop
    exact (h.score st k).bind fun r => ih _ _ _

theorem StScorer.Sim.corpusLoop (h : S'.Sim A S) (ls : List (List K)) : ∀ st t, Refines A (S.corpusLoop ls st t) (S'.corpusLoop ls st t) := by
  induction ls with
  | nil => intro st t; exact Refines.pure _
  | cons l ls ih =>
    intro st t
    unfold Scorer.corpusLoop StScorer.corpusLoop
    exact (Refines.lift _).bind fun st => (h.lineLoop l st 0 t.onlyOOVs).bind fun r => ih _ _

theorem StScorer.Sim.scoreCorpus (h : S'.Sim A S) (d : Wd) (one : F) (text : List (List K)) :
    Refines A (S.scoreCorpus d one text) (S'.scoreCorpus d one text) := by
  unfold Scorer.scoreCorpus StScorer.scoreCorpus
  rw [h.order]
  exact (Refines.lift _).bind fun st => (h.corpusLoop _ _ _).bind fun r => Refines.pure _

theorem StScorer.Sim.session (h : S'.Sim A S) (ops : List (Nat × Option K)) : ∀ sts, Refines A (S.session ops sts) (S'.session ops sts) := by
  induction ops with
  | nil => intro sts; exact Refines.pure _
  | cons o ops ih =>
    intro sts
    obtain ⟨i, o⟩ := o
    unfold Scorer.session StScorer.session
    refine (Refines.lift _).bind fun st => ?_
    cases o with
    | none => exact ((Refines.lift _).bind fun st => Refines.pure _).bind fun r => (ih _).bind fun s => Refines.pure _
    | some w => exact ((h.score _ _).bind fun st => Refines.pure _).bind fun r => (ih _).bind fun s => Refines.pure _

end


/-- A stateful backoff trie simulates an ideal one. -/
structure StProb.Sim {K F : Type} {G : GramsSt} {R : RanksSt} (t : TrieProb K F) (t' : StProb K F G R) : Prop where
  order : t'.order = t.order
  ro : t'.ro = t.ro
  unk : t'.unk = t.unk
  voc : t'.voc = t.voc
  ps : t'.ps = t.ps
  bs : t'.bs = t.bs
  pb : t'.pb = t.pb
  arrs : ArrSim t.arrs t'.arrs

section
variable {G : GramsSt} {R : RanksSt} {I : GramsImpl} {J : RanksImpl} {K F : Type} [DecidableEq K] [FloatArith F]

theorem StProb.Sim.scorer {t : TrieProb K F} {t' : StProb K F G R} (h : t'.Sim t) (fb : FloatBits F) :
    (t'.scorer fb).Sim t.arrs (t.scorer fb) where
  order := h.order
  unk := h.unk
  first k := by
    simp only [StProb.scorer, TrieProb.scorer, h.voc]
    refine (Refines.lift _).bind fun p => (Refines.pure _).ite ?_
    have e : ((t.arrs[0]?).bind fun a => (a.range p.1.toNat).map fun r =>
          (p.1.toNat, some (fb.dec (unpack p.2).1, fb.dec (unpack p.2).2, (⟨r, p.1.toNat, p.1.toNat⟩ : TrieProb.Cursor)))) =
        ((t.arrs[0]?).bind fun a => a.range p.1.toNat).map fun r =>
          (p.1.toNat, some (fb.dec (unpack p.2).1, fb.dec (unpack p.2).2, (⟨r, p.1.toNat, p.1.toNat⟩ : TrieProb.Cursor))) := by
      cases t.arrs[0]? <;> rfl
    rw [e]
    exact (Refines.range 0 p.1.toNat).map
  next j c x := by
    simp only [StProb.scorer, TrieProb.scorer, h.ro, h.ps, h.bs, h.pb, h.order]
    refine (Refines.pure _).ite (Refines.bind ((Refines.mapId _ _ _ _).ite (Refines.pure _)) fun id => ?_)
    have e : ((t.arrs[j]?).bind fun a => (a.position c.range id).bind fun pos =>
        if pos = NF then some none else
        (a.ranks pos).bind fun rk => (Quant.accessAt t.ps (j - 1) (rk &&& (2 ^ t.pb - 1))).bind fun p =>
        if j ≠ t.order - 1 then
          (Quant.accessAt t.bs (j - 1) (rk >>> t.pb)).bind fun b => (a.range pos).map fun r => some (p, some b, (⟨r, x, c.prev⟩ : TrieProb.Cursor))
        else some (some (p, none, ⟨c.range, x, c.prev⟩))) =
      ((t.arrs[j]?).bind fun a => a.position c.range id).bind fun pos =>
        if pos = NF then some none else
        ((t.arrs[j]?).bind fun a => a.ranks pos).bind fun rk => (Quant.accessAt t.ps (j - 1) (rk &&& (2 ^ t.pb - 1))).bind fun p =>
        if j ≠ t.order - 1 then
          (Quant.accessAt t.bs (j - 1) (rk >>> t.pb)).bind fun b => ((t.arrs[j]?).bind fun a => a.range pos).map fun r =>
            some (p, some b, (⟨r, x, c.prev⟩ : TrieProb.Cursor))
        else some (some (p, none, ⟨c.range, x, c.prev⟩)) := by
      cases t.arrs[j]? <;> rfl
    rw [e]
    refine (Refines.position _ _ _).bind fun pos => (Refines.pure _).ite ((Refines.rank _ _).bind fun rk => (Refines.lift _).bind fun p => ?_)
    exact Refines.ite ((Refines.lift _).bind fun b => (Refines.range _ _).map) (Refines.pure _)

/-- If the trie over ideal sequences can be built, so can the trie over the stateful ones; it simulates it. -/
theorem StProb.build_sim (hG : ∀ ord ids ptrs, G.Implements I ord ids ptrs) (hR : ∀ ord ranks, R.Implements J ord ranks) {fb : FloatBits F}
    {sort : List F → List F} {negInf : F} {unkWord : K} {default unk : F} {hv : Mphf K 64} {ro pb bb : Nat}
    {data : List (List (List K × F × F))} {t : TrieProb K F}
    (h : TrieProb.build fb sort negInf unkWord default hv I J ro unk pb bb data = some (.ok t)) :
    ∃ t', StProb.build fb sort negInf unkWord default hv G R ro unk pb bb data = some (.ok t') ∧ t'.Sim t := by
  unfold TrieProb.build at h
  by_cases hc : data.length < 2 ∨ maxOrder < data.length ∨ 2 < ro
  · rw [if_pos hc] at h; cases h
  rw [if_neg hc] at h
  obtain ⟨cb, e1, h⟩ := Res.bind_ok_iff h
  obtain ⟨f0, e2, h⟩ := Res.bind_ok_iff h
  obtain ⟨tb, e3, h⟩ := Res.bind_ok_iff h
  obtain ⟨rks, e4, h⟩ := Res.bind_ok_iff h
  obtain ⟨arrs, e5, h⟩ := Res.bind_ok_iff h
  cases h
  have h0 : ArrSim (data.map fun f => SortedArray.new f.length) (data.map fun f => (StArray.new f.length : StArray G R)) := by
    refine ⟨by simp, ?_⟩
    intro i a b ha hb
    rw [List.getElem?_map] at ha hb
    obtain ⟨f, hf, rfl⟩ := Option.map_eq_some_iff.1 ha
    rw [hf] at hb; cases hb
    exact StArray.new_sim _
  obtain ⟨B, b5, s5⟩ := buildLevels_sim hG hR _ _ _ h0 e5
  refine ⟨{ order := data.length, ro := ro, unk := findUnk unkWord default f0 unk, voc := tb, arrs := B, ps := cb.1, bs := cb.2, pb := pb }, ?_,
    ⟨rfl, rfl, rfl, rfl, rfl, rfl, rfl, s5⟩⟩
  unfold StProb.build
  rw [if_neg hc, e1, Res.bind_ok, e2, Res.bind_ok, e3, Res.bind_ok, e4, Res.bind_ok, b5, Res.bind_ok]

theorem StProb.Sim.scoreCorpus {t : TrieProb K F} {t' : StProb K F G R} (h : t'.Sim t) {fb : FloatBits F} {d : Nat} {one : F} {text : List (List K)}
    {v : Totals F} (hv : (t.scorer fb).scoreCorpus d one text = some v) : ∃ t'', t'.scoreCorpus fb d one text = some (v, t'') ∧ t''.Sim t := by
  obtain ⟨B, e, hB⟩ := (h.scorer fb).scoreCorpus d one text v hv _ h.arrs
  exact ⟨{ t' with arrs := B }, by unfold StProb.scoreCorpus; rw [e, Option.map_some], ⟨h.order, h.ro, h.unk, h.voc, h.ps, h.bs, h.pb, hB⟩⟩

theorem StProb.Sim.session {t : TrieProb K F} {t' : StProb K F G R} (h : t'.Sim t) {fb : FloatBits F} {d : Nat} {one : F} {n : Nat}
    {ops : List (Nat × Option K)} {v : List (Option (F × Bool)) × List (PState Nat F)}
    (hv : ((PState.new t.order d one).bind fun st => (t.scorer fb).session ops (List.replicate n st)) = some v) :
    ∃ t'', t'.session fb d one n ops = some (v.1, t'') ∧ t''.Sim t := by
  have hr : Refines t.arrs ((PState.new t.order d one).bind fun st => (t.scorer fb).session ops (List.replicate n st))
      (St.bind (St.lift (PState.new t.order d one)) fun st => (t'.scorer fb).session ops (List.replicate n st) : St G R _) :=
    (Refines.lift _).bind fun st => (h.scorer fb).session ops _
  obtain ⟨B, e, hB⟩ := hr v hv _ h.arrs
  refine ⟨{ t' with arrs := B }, ?_, ⟨h.order, h.ro, h.unk, h.voc, h.ps, h.bs, h.pb, hB⟩⟩
  unfold StProb.session
  rw [h.order, e, Option.map_some]

end

/-! ## Interleaved scoring -/

/-- Specification of a session: the history of each state is the words scored with it since its last `init()` (most recent first); the answer
to a word is its score after the history of its state alone, and whether it is unknown. -/
def Spec.Arpa.session {K F : Type} [LogProb F] (A : Spec.Arpa K F) : List (Nat × Option K) → (Nat → List K) → List (Option (F × Bool))
  | [], _ => []
  | (i, none) :: ops, hist => none :: session A ops fun j => if j = i then [] else hist j
  | (i, some w) :: ops, hist =>
    some (A.score ((hist i).take (A.kept (hist i))).reverse w, (A.entry [w]).isNone) ::
      session A ops fun j => if j = i then w :: hist i else hist j

/-- Specification: `P` holds of all n-grams met in a session: each word scored, with each suffix of the history of its state (oldest word first). -/
def Spec.SessionGrams {K : Type} (P : List K → Prop) : List (Nat × Option K) → (Nat → List K) → Prop
  | [], _ => True
  | (i, none) :: ops, hist => SessionGrams P ops fun j => if j = i then [] else hist j
  | (i, some w) :: ops, hist =>
    (∀ k, 1 ≤ k → k ≤ (hist i).length + 1 → P ((w :: hist i).take k).reverse) ∧ SessionGrams P ops fun j => if j = i then w :: hist i else hist j

namespace Scorer
variable {K Wd F C : Type} [LogProb F] {S : Scorer K Wd F C} {A : Spec.Arpa K F} {V : List K → Prop} {wd : K → Wd}

theorem session_spec (I : Implements S A V wd) (wf : A.WellFormed) (n : Nat) (ops : List (Nat × Option K)) :
    ∀ (sts : List (PState Wd F)) (hist : Nat → List K), sts.length = n → (∀ o ∈ ops, o.1 < n) →
    (∀ i st, sts[i]? = some st → Inv A wd st (hist i)) → Spec.SessionGrams (fun g => V g.reverse) ops hist →
    ∃ sts', S.session ops sts = some (A.session ops hist, sts') := by
  induction ops with
  | nil => intro sts hist _ _ _ _; exact ⟨sts, rfl⟩
  | cons o ops ih =>
    intro sts hist hn ho hinv hV
    obtain ⟨i, o⟩ := o
    have hi : i < sts.length := by rw [hn]; exact ho (i, o) List.mem_cons_self
    have hst := List.getElem?_eq_getElem hi
    have hi0 := hinv i _ hst
    have hset : ∀ (st' : PState Wd F) (h' : List K), Inv A wd st' h' → ∀ j st, (sts.set i st')[j]? = some st →
        Inv A wd st (if j = i then h' else hist j) := by
      intro st' h' hi' j st hj
      rw [List.getElem?_set] at hj
      by_cases hij : i = j
      · subst hij
        rw [if_pos rfl, if_pos hi] at hj
        cases hj
        rw [if_pos rfl]; exact hi'
      · rw [if_neg hij] at hj
        rw [if_neg (fun e => hij e.symm)]
        exact hinv j st hj
    cases o with
    | none =>
      obtain ⟨st', e1, inv', -⟩ := init_inv wf hi0
      obtain ⟨sts', e2⟩ := ih (sts.set i st') (fun j => if j = i then [] else hist j) (by rw [List.length_set, hn])
        (fun o ho' => ho o (List.mem_cons_of_mem _ ho')) (hset st' [] inv') hV
      refine ⟨sts', ?_⟩
      rw [session, hst, Option.bind_some]
      simp only [e1, Option.bind_some, e2]
      rfl
    | some w =>
      obtain ⟨st', e1, inv', -⟩ := score_spec I wf hi0 w (fun k h1 h2 => by have := hV.1 k h1 h2; simp only [List.reverse_reverse] at this; exact this)
      obtain ⟨sts', e2⟩ := ih (sts.set i st') (fun j => if j = i then w :: hist i else hist j) (by rw [List.length_set, hn])
        (fun o ho' => ho o (List.mem_cons_of_mem _ ho')) (hset st' (w :: hist i) inv') hV.2
      refine ⟨sts', ?_⟩
      rw [session, hst, Option.bind_some]
      simp only [e1, Option.bind_some, e2]
      rfl

end Scorer


theorem Spec.SessionGrams.of_words {K : Type} {Q : K → Prop} (ops : List (Nat × Option K)) : (∀ o ∈ ops, ∀ w ∈ o.2, Q w) →
    ∀ hist : Nat → List K, (∀ i, ∀ w ∈ hist i, Q w) → Spec.SessionGrams (fun g => ∀ w ∈ g.reverse, Q w) ops hist := by
  induction ops with
  | nil => intro _ _ _; trivial
  | cons o ops ih =>
    intro ho hist hh
    obtain ⟨i, o⟩ := o
    have ho' : ∀ o ∈ ops, ∀ w ∈ o.2, Q w := fun o h => ho o (List.mem_cons_of_mem _ h)
    cases o with
    | none =>
      refine ih ho' _ fun j w hw => ?_
      split at hw
      · cases hw
      · exact hh j w hw
    | some w =>
      have hall : ∀ x ∈ w :: hist i, Q x := by
        intro x hx
        rcases List.mem_cons.1 hx with rfl | hx
        · exact ho _ List.mem_cons_self _ rfl
        · exact hh i x hx
      refine ⟨fun k _ _ x hx => ?_, ih ho' _ fun j x hx => ?_⟩
      · rw [List.reverse_reverse] at hx
        exact hall x (List.mem_of_mem_take hx)
      · split at hx
        · exact hall x hx
        · exact hh j x hx

/-! ## Properties -/

/-- Specification: the n-gram `g` (oldest word first) is listed in the ARPA data. -/
def Spec.Listed {K F : Type} (data : List (List (List K × F × F))) (g : List K) : Prop := ∃ f ∈ data, ∃ r ∈ f, r.1 = g

/-- Specification: the id under which a trie of remapping order `ro` stores the first word of the n-gram `g`: its vocabulary id, or the
number of smaller words listed before the next `ro` words. -/
def Spec.leftId {K F : Type} [DecidableEq K] (U : List K) (data : List (List (List K × F × F))) (ro : Nat) (g : List K) : Nat :=
  Spec.storedId U ((data.map (·.map (·.1.reverse))).getD ro []) ro g.reverse

/-- Specification: the n-grams that a backoff trie over `uniform_pef_sequence` handles.  Their words are recognised (C23).  If the n-gram is a
known word followed by a listed n-gram `s`, and is not listed although other words are listed before `s`, then the word is searched with an id that
is not 0 and smaller than that of another word listed before `s`; with context remapping, its first `ro + 1` words are listed. -/
structure Spec.PefScorable {K F : Type} [DecidableEq K] (hv : Mphf K 64) (U : List K) (data : List (List (List K × F × F))) (ro : Nat)
    (g : List K) : Prop where
  words : ∀ w ∈ g, Spec.Recognised hv U w
  absent : ∀ x s, g = x :: s → x ∈ U → Spec.Listed data s → ¬ Spec.Listed data g → (∃ y, Spec.Listed data (y :: s)) →
    (ro ≠ 0 → ro < s.length → Spec.Listed data (g.take (ro + 1))) ∧ Spec.leftId U data ro g ≠ 0 ∧
      ∃ y, Spec.Listed data (y :: s) ∧ Spec.leftId U data ro g < Spec.leftId U data ro (y :: s)

namespace StProb
variable {K F : Type} [DecidableEq K] [FloatArith F]

theorem listed_iff {data : List (List (List K × F × F))} (h : Spec.ArpaFiles data) {g : List K} {k : Nat} (hk : g.length = k + 1) :
    Spec.Listed data g ↔ g.reverse ∈ (data.map (·.map (·.1.reverse))).getD k [] := by
  constructor
  · rintro ⟨f, hf, r, hr, rfl⟩
    obtain ⟨i, hi, rfl⟩ := List.mem_iff_getElem.1 hf
    have := h.len i _ (List.getElem?_eq_getElem hi) r hr
    obtain rfl : i = k := by omega
    rw [Trie.getD_eq (TrieProb.data_level (List.getElem?_eq_getElem hi))]
    exact List.mem_map.2 ⟨r, hr, rfl⟩
  · intro hg
    rw [List.getD_eq_getElem?_getD, List.getElem?_map] at hg
    cases hd : data[k]? with
    | none => rw [hd] at hg; simp at hg
    | some f =>
      rw [hd] at hg
      obtain ⟨r, hr, e⟩ := List.mem_map.1 hg
      exact ⟨f, List.mem_of_getElem? hd, r, hr, by simpa using congrArg List.reverse e⟩

theorem clear_of {hv : Mphf K 64} {U : List K} {data : List (List (List K × F × F))} {ro : Nat} (h : Spec.ArpaFiles data) {g : List K}
    (hg : Spec.PefScorable hv U data ro g.reverse) :
    TrieProb.Clear (PefTrie.ClearAt U (data.map (·.map (·.1.reverse))) ro) U (data.map (·.map (·.1.reverse))) ro g := by
  rintro p x rfl hp hx hpl hnl ⟨q', hq', hqp⟩
  have hpos := List.length_pos_iff.2 hp
  have hrev : (p ++ [x]).reverse = x :: p.reverse := by simp
  rw [hrev] at hg
  have hy : ∃ y, q' = p ++ [y] ∧ Spec.Listed data (y :: p.reverse) := by
    have hne : q' ≠ [] := by rintro rfl; exact hp (by rw [← hqp]; rfl)
    have e : q' = p ++ [q'.getLast hne] := by rw [← hqp]; exact (List.dropLast_concat_getLast hne).symm
    refine ⟨_, e, (listed_iff h (k := p.length) (by simp)).2 ?_⟩
    rw [List.reverse_cons, List.reverse_reverse, ← e]; exact hq'
  obtain ⟨y, -, hy⟩ := hy
  obtain ⟨c1, c2, z, c3, c4⟩ := hg.absent x p.reverse rfl hx ((listed_iff h (k := p.length - 1) (by simp; omega)).2 (by simpa using hpl))
    (fun hl => hnl (by have := (listed_iff h (k := p.length) (by simp)).1 hl; simpa using this)) ⟨y, hy⟩
  have hid : Spec.leftId U data ro (x :: p.reverse) = Spec.storedId U ((data.map (·.map (·.1.reverse))).getD ro []) ro (p ++ [x]) := by
    unfold Spec.leftId; simp
  have hidz : Spec.leftId U data ro (z :: p.reverse) = Spec.storedId U ((data.map (·.map (·.1.reverse))).getD ro []) ro (p ++ [z]) := by
    unfold Spec.leftId; simp
  rw [hid] at c2 c4
  rw [hidz] at c4
  split
  · refine ⟨c2, p ++ [z], ?_, by simp, c4⟩
    have := (listed_iff h (k := p.length) (by simp)).1 c3
    simpa using this
  · rename_i hc
    exfalso
    apply hc
    by_cases h0 : ro = 0
    · exact .inl h0
    by_cases h1 : p.length ≤ ro
    · exact .inr (.inl h1)
    have hw := (listed_iff h (k := ro) (by simp; omega)).1 (c1 h0 (by simp; omega))
    rw [← hrev, List.take_reverse, List.reverse_reverse] at hw
    refine .inr (.inr ?_)
    rwa [List.length_append, List.length_singleton, show p.length + 1 - (ro + 1) = p.length - ro by omega] at hw

end StProb

section
variable {K F : Type} [DecidableEq K] [FloatArith F]

/-- **C55.**  For every ARPA model of order 2 to 8 (sorted as the builder requires, of the sizes `uniform_pef_sequence` handles) and every
remapping order, the backoff trie over `uniform_pef_sequence` builds.  In every session, with any number of states used in any order on the one
model, that meets only n-grams of `Spec.PefScorable`, each word gets its score after the history of its own state: the backoff recursion over the quantised
model, with the context that the code keeps (C27).  `junkU`, `junkD`, `junk`: the memory after the arrays of each sequence. -/
theorem C55_pef_trie_interleaved_scores (fb : FloatBits F) {sort : List F → List F} (hsort : ∀ l, (sort l).Perm l ∧ (sort l).Pairwise (· ≤ ·))
    (negInf : F) (unkWord : K) (default unk : F) {U : List K} {data : List (List (List K × F × F))} {ro pb bb : Nat}
    (h : Spec.ProbFiles U data ro) (hp : Spec.PefFiles U (TrieProb.asCounts data) ro) (hq : Spec.Quantisable data pb bb) (hbits : pb + bb ≤ 58)
    (hfb : ∀ f0, data[0]? = some f0 → ∀ r ∈ f0, fb.dec (fb.enc r.2.1) = r.2.1 ∧ fb.dec (fb.enc r.2.2) = r.2.2)
    {hv : Mphf K 64} (hb : hv.BuiltFrom U) {junkU junkD junk : Nat → List W} (hu : ∀ k, junkU k ≠ []) (hjd : ∀ k, junkD k ≠ []) (hj : ∀ k, junk k ≠ []) :
    ∃ t qp qb, StProb.build fb sort negInf unkWord default hv (GramsSt.pef junkU junkD) (RanksImpl.cv junk).st ro unk pb bb data = some (.ok t) ∧
      Spec.Quantised data pb bb qp qb ∧
      (∀ (n : Nat) (ops : List (Nat × Option K)) (d : Nat) (one : F), (∀ o ∈ ops, o.1 < n) →
        Spec.SessionGrams (Spec.PefScorable hv U data ro) ops (fun _ => []) →
        ∃ t', t.session fb d one n ops =
          some ((Spec.Arpa.ofData data (Spec.unkProb unkWord default (data.getD 0 []) unk) qp qb).session ops (fun _ => []), t')) ∧
      ∀ (text : List (List K)) (d : Nat) (one : F), (∀ ws ∈ text, ∀ g, Scorer.Occurs ws g → Spec.PefScorable hv U data ro g.reverse) →
        ∃ t', t.scoreCorpus fb d one text =
          some ((Spec.Arpa.ofData data (Spec.unkProb unkWord default (data.getD 0 []) unk) qp qb).corpus text, t') := by
  obtain ⟨ps, bs, e1, e2, e3⟩ := Quant.codebooks_ok hsort negInf h.arpa.order_min hq
  obtain ⟨t, f1, f2, f3⟩ := TrieProb.build_grams fb negInf unkWord default unk h hb (G := PefTrie.ideal)
    (ex := PefTrie.ClearAt U (data.map (·.map (·.1.reverse))) ro)
    (fun k prev curr h1 h2 => by
      have := PefTrie.grams_exact (TrieProb.asCounts_ok h) hp k prev curr
      rw [TrieProb.asCounts_map] at this
      exact this h1 h2) hj hbits e1 e2
  obtain ⟨t', b1, hs⟩ := StProb.build_sim (G := GramsSt.pef junkU junkD) (R := (RanksImpl.cv junk).st) (PefTrie.pef_implements hu hjd)
    (RanksImpl.st_implements _) f1
  have hd : data[0]? = some (data.getD 0 []) := by
    rw [List.getD_eq_getElem?_getD, List.getElem?_eq_getElem (by have := h.arpa.order_min; omega)]; rfl
  refine ⟨t', _, _, b1, e3, ?_⟩
  rw [← findUnk_spec unkWord default _ unk (h.arpa.distinct _ (List.mem_of_getElem? hd)), ← f3 _ hd]
  have hI : Scorer.Implements (t.scorer fb) _ (fun g => Spec.PefScorable hv U data ro g.reverse) _ :=
    (TrieProb.implements hfb h f2 e2).weaken fun g hg => ⟨fun w hw => hg.words w (List.mem_reverse.2 hw), StProb.clear_of h.arpa hg⟩
  have hwf := ArpaData.wellFormed data t.unk (Quant.quantiser ps 0) (Quant.quantiser bs 1) h.arpa
  constructor
  · intro n ops d one hops hV
    obtain ⟨st, s1, s2, -⟩ := Scorer.new_inv hwf (fun w => if w ∈ U then U.idxOf w else NF) d one
    obtain ⟨sts', s3⟩ := Scorer.session_spec hI hwf n ops (List.replicate n st) (fun _ => []) (by simp) hops
      (fun i st' hi => by
        rw [List.getElem?_replicate] at hi
        split at hi
        · cases hi; exact s2
        · cases hi)
      (by simp only [List.reverse_reverse]; exact hV)
    obtain ⟨t'', g1, -⟩ := hs.session (fb := fb) (d := d) (one := one) (n := n) (ops := ops) (v := (_, sts')) (by
      have hoo : t.order = (Spec.Arpa.ofData data t.unk (Quant.quantiser ps 0) (Quant.quantiser bs 1)).order := hI.order
      rw [hoo, s1, Option.bind_some, s3])
    exact ⟨t'', g1⟩
  · intro text d one hV
    obtain ⟨t'', g1, -⟩ := hs.scoreCorpus (Scorer.scoreCorpus_eq hI hwf d one text (fun ws hws g hg => hV ws hws g hg))
    exact ⟨t'', g1⟩

/-- **C30**, for several states: in any interleaving of words scored with any number of states on one trie (`fast_ef_sequence` grams), and of resets of these
states, each word gets its score after the history of its own state (C27), whatever the other states have been used for. -/
theorem C30_trie_states_independent (fb : FloatBits F) {sort : List F → List F} (hsort : ∀ l, (sort l).Perm l ∧ (sort l).Pairwise (· ≤ ·))
    (negInf : F) (unkWord : K) (default unk : F) {U : List K} {data : List (List (List K × F × F))} {ro pb bb : Nat}
    (h : Spec.ProbFiles U data ro) (hq : Spec.Quantisable data pb bb) (hbits : pb + bb ≤ 58)
    (hfb : ∀ f0, data[0]? = some f0 → ∀ r ∈ f0, fb.dec (fb.enc r.2.1) = r.2.1 ∧ fb.dec (fb.enc r.2.2) = r.2.2)
    {hv : Mphf K 64} (hb : hv.BuiltFrom U) {hr : Nat → Mphf Nat 64} (hh : Spec.RangeHashes hr (TrieProb.asCounts data))
    {junk : Nat → List W} (hj : ∀ k, junk k ≠ []) :
    ∃ t qp qb, StProb.build fb sort negInf unkWord default hv (GramsImpl.fastEF hr).st (RanksImpl.cv junk).st ro unk pb bb data = some (.ok t) ∧
      Spec.Quantised data pb bb qp qb ∧
      ∀ (n : Nat) (ops : List (Nat × Option K)) (d : Nat) (one : F), (∀ o ∈ ops, o.1 < n ∧ ∀ w ∈ o.2, Spec.Recognised hv U w) →
        ∃ t', t.session fb d one n ops =
          some ((Spec.Arpa.ofData data (Spec.unkProb unkWord default (data.getD 0 []) unk) qp qb).session ops (fun _ => []), t') := by
  obtain ⟨ps, bs, e1, e2, e3⟩ := Quant.codebooks_ok hsort negInf h.arpa.order_min hq
  obtain ⟨t, f1, f2, f3⟩ := TrieProb.build_ok fb negInf unkWord default unk h hb hh hj hbits e1 e2
  obtain ⟨t', b1, hs⟩ := StProb.build_sim (G := (GramsImpl.fastEF hr).st) (R := (RanksImpl.cv junk).st) (GramsImpl.st_implements _)
    (RanksImpl.st_implements _) f1
  have hd : data[0]? = some (data.getD 0 []) := by
    rw [List.getD_eq_getElem?_getD, List.getElem?_eq_getElem (by have := h.arpa.order_min; omega)]; rfl
  refine ⟨t', _, _, b1, e3, ?_⟩
  rw [← findUnk_spec unkWord default _ unk (h.arpa.distinct _ (List.mem_of_getElem? hd)), ← f3 _ hd]
  have hI := TrieProb.implements_all hfb h f2 e2
  have hwf := ArpaData.wellFormed data t.unk (Quant.quantiser ps 0) (Quant.quantiser bs 1) h.arpa
  intro n ops d one hops
  obtain ⟨st, s1, s2, -⟩ := Scorer.new_inv hwf (fun w => if w ∈ U then U.idxOf w else NF) d one
  obtain ⟨sts', s3⟩ := Scorer.session_spec hI hwf n ops (List.replicate n st) (fun _ => []) (by simp) (fun o ho => (hops o ho).1)
    (fun i st' hi => by
      rw [List.getElem?_replicate] at hi
      split at hi
      · cases hi; exact s2
      · cases hi)
    (Spec.SessionGrams.of_words ops (fun o ho w hw => (hops o ho).2 w hw) _ (by simp))
  obtain ⟨t'', g1, -⟩ := hs.session (fb := fb) (d := d) (one := one) (n := n) (ops := ops) (v := (_, sts')) (by
    have hoo : t.order = (Spec.Arpa.ofData data t.unk (Quant.quantiser ps 0) (Quant.quantiser bs 1)).order := hI.order
    rw [hoo, s1, Option.bind_some, s3])
  exact ⟨t'', g1⟩

end

/-! ## Concrete models -/

namespace PefProbExample
open TrieProbExample

/-- A trigram model over the words 0, 1, 2 that lists no bigrams "1 0" and "1 1". -/
def dataP : List (List (List Nat × ℚ × ℚ)) :=
  [[([0], -2, -1), ([1], -3, -1), ([2], -3, -1)],
   [([2, 0], -1/2, -1/8), ([0, 1], -1/2, -1/8), ([2, 1], -1/2, -1/8), ([1, 2], -1/2, -1/8)],
   [([1, 2, 0], -1/4, 0), ([2, 0, 1], -1/4, 0), ([1, 2, 1], -1/4, 0), ([0, 1, 2], -1/4, 0), ([2, 1, 2], -1/4, 0)]]

theorem dataP_ok (ro : Nat) (hro : ro ≤ 2) : Spec.ProbFiles [0, 1, 2] dataP ro where
  arpa := by
    refine ⟨by simp [dataP], by simp [dataP], ?_, ?_, ?_, ?_, ?_⟩
    · intro k l h; rcases k with _ | _ | _ | k <;> simp [dataP] at h <;> subst h <;> simp
    · intro f hf; simp [dataP] at hf; rcases hf with rfl | rfl | rfl <;> simp
    · intro f hf; simp [dataP] at hf; rcases hf with rfl | rfl | rfl <;> simp
    · intro k l l' h h'; rcases k with _ | _ | _ | k <;> simp [dataP] at h h' <;> subst h h' <;> simp
    · intro k l l' h h'; rcases k with _ | _ | _ | k <;> simp [dataP] at h h' <;> subst h h' <;> simp
  trie := by
    refine ⟨by decide, rfl, ?_, ?_, ?_, ?_, ?_, ?_⟩
    · intro k l h; rcases k with _ | _ | _ | k <;> simp [dataP] at h <;> subst h <;> simp
    · intro k l h; rcases k with _ | _ | _ | k <;> simp [dataP] at h <;> subst h <;> simp
    · intro k l h; rcases k with _ | _ | _ | k <;> simp [dataP] at h <;> subst h <;> simp
    · intro k l h; rcases k with _ | _ | _ | k <;> simp [dataP] at h <;> subst h <;> decide
    · intro k l l' h h'; rcases k with _ | _ | _ | k <;> simp [dataP] at h h' <;> subst h h' <;> simp
    · refine Trie.windows_of_suffixes ?_
      intro _ k l l' h h'; rcases k with _ | _ | _ | k <;> simp [dataP] at h h' <;> subst h h' <;> simp
  remapping := hro
  size := by intro f hf; simp [dataP] at hf; rcases hf with rfl | rfl | rfl <;> simp

theorem dataP_quant : Spec.Quantisable dataP 2 2 where
  probs := by decide
  backoffs := by decide
  probs_size := by intro f hf; simp [dataP] at hf; rcases hf with rfl | rfl <;> simp
  backoffs_size := by
    intro f hf
    simp [dataP] at hf; subst hf
    right; simp
  probs_bins := fun _ _ => trivial
  backoffs_bins := fun _ _ => trivial

theorem dataP_float : ∀ f0, dataP[0]? = some f0 → ∀ r ∈ f0, fbQ.dec (fbQ.enc r.2.1) = r.2.1 ∧ fbQ.dec (fbQ.enc r.2.2) = r.2.2 := by
  intro f0 hf r hr
  simp [dataP] at hf; subst hf
  simp at hr
  rcases hr with rfl | rfl | rfl <;> exact ⟨by decide +kernel, by decide +kernel⟩

theorem dataP_pef (ro : Nat) (hro : ro ≤ 1) : Spec.PefFiles [0, 1, 2] (TrieProb.asCounts dataP) ro where
  span := by simp [dataP, TrieProb.asCounts]
  nonzero := by
    intro k f h _ _
    rcases k with _ | _ | _ | k <;> simp [dataP, TrieProb.asCounts] at h <;> subst h <;>
      rcases ro with _ | _ | ro <;> first | omega | (simp [dataP, TrieProb.asCounts]; try decide)

instance (g : List Nat) : Decidable (Spec.Listed dataP g) := by unfold Spec.Listed; infer_instance

theorem scorable {ro : Nat} {g : List Nat} (hw : ∀ w ∈ g, w ∈ [0, 1, 2, 4])
    (hg : g.headD 0 ∈ [0, 1, 2] → Spec.Listed dataP g.tail → ¬ Spec.Listed dataP g → (∃ y ∈ [0, 1, 2], Spec.Listed dataP (y :: g.tail)) →
      (ro ≠ 0 → ro < g.tail.length → Spec.Listed dataP (g.take (ro + 1))) ∧ Spec.leftId [0, 1, 2] dataP ro g ≠ 0 ∧
      ∃ y ∈ [0, 1, 2], Spec.Listed dataP (y :: g.tail) ∧ Spec.leftId [0, 1, 2] dataP ro g < Spec.leftId [0, 1, 2] dataP ro (y :: g.tail)) :
    Spec.PefScorable MphExample.mphf [0, 1, 2] dataP ro g where
  words w h := recognised w (hw w h)
  absent := by
    rintro x s rfl hx h1 h2 ⟨y, h3⟩
    have hy : y ∈ [0, 1, 2] := by
      obtain ⟨f, hf, r, hr, e⟩ := h3
      have : ∀ f ∈ dataP, ∀ r ∈ f, ∀ w ∈ r.1, w ∈ [0, 1, 2] := by decide
      exact this f hf r hr y (by rw [e]; simp)
    obtain ⟨c1, c2, z, -, c3⟩ := hg hx h1 h2 ⟨y, hy, h3⟩
    exact ⟨c1, c2, z, c3⟩

/-- The first state scores "1 1 2 0"; between its words the second scores "2", "1" (an unknown word between them) and then, after `init()`, "0 1". -/
def ops : List (Nat × Option Nat) := [(0, some 1), (1, some 2), (0, some 1), (1, some 4), (0, some 2), (1, some 1), (1, none), (0, some 0), (1, some 0), (1, some 1)]

theorem ops_ok : Spec.SessionGrams (Spec.PefScorable MphExample.mphf [0, 1, 2] dataP 0) ops (fun _ => []) := by
  unfold ops
  simp only [Spec.SessionGrams]
  simp
  refine ⟨?_, ?_, ?_, ?_, ?_, ?_, ?_, ?_, ?_⟩ <;>
  · intro k h1 h2
    rcases k with _ | _ | _ | _ | _ | k <;> first
    | omega
    | exact scorable (by decide) (by decide)

end PefProbExample

namespace PefProbExample
open TrieProbExample

/-- Quantising sections whose values are all equal changes nothing. -/
theorem dataP_exact {qp qb : Nat → ℚ → ℚ} (hq : Spec.Quantised dataP 2 2 qp qb) (unk : ℚ) :
    Spec.Arpa.ofData dataP unk qp qb = Spec.Arpa.ofData dataP unk (fun _ v => v) (fun n v => if n = 2 then v else qb n v) := by
  apply Spec.Arpa.ofData_congr
  have h1 : qp 2 (-1/2) = -1/2 := by
    obtain ⟨code, -, c2, c3⟩ := hq.probs 0 _ rfl
    obtain ⟨m, -⟩ := c3 ([2, 0], -1/2, -1/8) (by simp)
    obtain ⟨⟨r, hr, hr1⟩, s, hs, hs1⟩ := c2 _ m
    have e1 : r.2.1 = -1/2 := by simp at hr; rcases hr with rfl | rfl | rfl | rfl <;> rfl
    have e2 : s.2.1 = -1/2 := by simp at hs; rcases hs with rfl | rfl | rfl | rfl <;> rfl
    rw [e1] at hr1; rw [e2] at hs1
    exact le_antisymm hs1 hr1
  have h2 : qp 3 (-1/4) = -1/4 := by
    obtain ⟨code, -, c2, c3⟩ := hq.probs 1 _ rfl
    obtain ⟨m, -⟩ := c3 ([1, 2, 0], -1/4, 0) (by simp)
    obtain ⟨⟨r, hr, hr1⟩, s, hs, hs1⟩ := c2 _ m
    have e1 : r.2.1 = -1/4 := by simp at hr; rcases hr with rfl | rfl | rfl | rfl | rfl <;> rfl
    have e2 : s.2.1 = -1/4 := by simp at hs; rcases hs with rfl | rfl | rfl | rfl | rfl <;> rfl
    rw [e1] at hr1; rw [e2] at hs1
    exact le_antisymm hs1 hr1
  have h3 : qb 2 (-1/8) = -1/8 := by
    obtain ⟨z, nz⟩ := hq.backoffs 0 _ rfl (by simp [dataP])
    obtain ⟨code, -, c2, c3⟩ := nz ⟨([2, 0], -1/2, -1/8), by simp, by norm_num⟩
    obtain ⟨m, -⟩ := c3 ([2, 0], -1/2, -1/8) (by simp) (by norm_num)
    obtain ⟨⟨r, hr, -, hr1⟩, s, hs, -, hs1⟩ := c2 _ m
    have e1 : r.2.2 = -1/8 := by simp at hr; rcases hr with rfl | rfl | rfl | rfl <;> rfl
    have e2 : s.2.2 = -1/8 := by simp at hs; rcases hs with rfl | rfl | rfl | rfl <;> rfl
    rw [e1] at hr1; rw [e2] at hs1
    exact le_antisymm hs1 hr1
  intro f hf r hr
  simp [dataP] at hf
  rcases hf with rfl | rfl
  · simp at hr
    rcases hr with rfl | rfl | rfl | rfl <;> exact ⟨h1, h3⟩
  · simp at hr
    rcases hr with rfl | rfl | rfl | rfl | rfl <;> exact ⟨h2, rfl⟩

/-- The hypotheses of C55 are met (remapping order 0), with absent n-grams, an unknown word and two states. -/
example : ∃ t, StProb.build fbQ sortQ (-1000) 9 (-100) MphExample.mphf (GramsSt.pef (fun _ => [7]) fun _ => [9]) (RanksImpl.cv fun _ => [0#64]).st 0 (-100)
      2 2 dataP = some (.ok t) ∧
    ∃ t', t.session fbQ 7 1 2 ops = some ([some (-3, false), some (-3, false), some (-4, false), some (-101, true), some (-1/2, false), some (-3, false),
      none, some (-1/4, false), some (-2, false), some (-1/2, false)], t') := by
  obtain ⟨t, qp, qb, e1, e2, e3, -⟩ := C55_pef_trie_interleaved_scores fbQ sortQ_ok (-1000) 9 (-100) (-100) (dataP_ok 0 (by omega)) (dataP_pef 0 (by omega))
    dataP_quant (by decide) dataP_float MphExample.built (junkU := fun _ => [7]) (junkD := fun _ => [9]) (junk := fun _ => [0#64]) (by simp) (by simp) (by simp)
  refine ⟨t, e1, ?_⟩
  obtain ⟨t', e4⟩ := e3 2 ops 7 1 (by decide) ops_ok
  refine ⟨t', e4.trans ?_⟩
  rw [dataP_exact e2]
  simp [ops, Spec.Arpa.session, Spec.Arpa.kept, Spec.Arpa.longestNZ, Spec.Arpa.score, Spec.Arpa.backoff, Spec.Arpa.ofData, dataP, Spec.unkProb, LogProb.nz]
  norm_num

/-- With remapping order 1, a text. -/
example : ∃ t, StProb.build fbQ sortQ (-1000) 9 (-100) MphExample.mphf (GramsSt.pef (fun _ => [7]) fun _ => [9]) (RanksImpl.cv fun _ => [0#64]).st 1 (-100)
      2 2 dataP = some (.ok t) ∧
    ∃ t', t.scoreCorpus fbQ 7 1 [[0, 1, 2], [1, 0], [1, 1]] = some (⟨0, 3, 7, -2 - 1/2 - 1/4 + (-3 + (-2 - 1)) + (-3 - 4), 0⟩, t') := by
  obtain ⟨t, qp, qb, e1, e2, -, e3⟩ := C55_pef_trie_interleaved_scores fbQ sortQ_ok (-1000) 9 (-100) (-100) (dataP_ok 1 (by omega)) (dataP_pef 1 (by omega))
    dataP_quant (by decide) dataP_float MphExample.built (junkU := fun _ => [7]) (junkD := fun _ => [9]) (junk := fun _ => [0#64]) (by simp) (by simp) (by simp)
  refine ⟨t, e1, ?_⟩
  obtain ⟨t', e4⟩ := e3 [[0, 1, 2], [1, 0], [1, 1]] 7 1 (by
    intro ws hws g hg
    obtain ⟨i, k, hi, hk, rfl⟩ := hg
    simp at hws
    rcases hws with rfl | rfl | rfl <;> simp at hi
    · rcases i with _ | _ | _ | i <;> rcases k with _ | _ | _ | k <;> first | omega | exact scorable (by simp) (by simp; try decide)
    · rcases i with _ | _ | i <;> rcases k with _ | _ | k <;> first | omega | exact scorable (by simp) (by simp; try decide)
    · rcases i with _ | _ | i <;> rcases k with _ | _ | k <;> first | omega | exact scorable (by simp) (by simp; try decide))
  refine ⟨t', e4.trans ?_⟩
  rw [dataP_exact e2]
  simp [Spec.Arpa.corpus, Spec.Arpa.sentenceScore, Spec.Arpa.wordScores, Spec.Arpa.keptScoreAt, Spec.Arpa.lastN, Spec.Arpa.kept, Spec.Arpa.longestNZ, Spec.Arpa.score, Spec.Arpa.backoff, Spec.Arpa.ofData, dataP, Spec.unkProb, LogProb.nz]
  norm_num

/-- The hypotheses of `C30_trie_states_independent` are met. -/
example : ∃ t, StProb.build fbQ sortQ (-1000) 9 (-100) MphExample.mphf (GramsImpl.fastEF fun _ => FastEF.exMphf).st (RanksImpl.cv fun _ => [0#64]).st 1 (-100)
      2 2 (data (-1/8)) = some (.ok t) ∧
    ∃ t', t.session fbQ 7 1 2 [(0, some 0), (1, some 1), (0, some 1), (1, some 1), (0, some 2), (1, some 4), (1, none), (1, some 0)] =
      some ([some (-2, false), some (-3, false), some (-1/2, false), some (-4, false), some (-1/4, false), some (-101, true), none, some (-2, false)], t') := by
  obtain ⟨t, qp, qb, e1, e2, e3⟩ := C30_trie_states_independent fbQ sortQ_ok (-1000) 9 (-100) (-100) (data_ok (-1/8) 1 (by omega))
    (data_quant _) (by decide) (data_float _) MphExample.built (data_hashes _) (junk := fun _ => [0#64]) (by simp)
  refine ⟨t, e1, ?_⟩
  obtain ⟨t', e4⟩ := e3 2 [(0, some 0), (1, some 1), (0, some 1), (1, some 1), (0, some 2), (1, some 4), (1, none), (1, some 0)] 7 1
    (by simp; refine ⟨?_, ?_, ?_, ?_, ?_⟩ <;> exact recognised _ (by simp))
  refine ⟨t', e4.trans ?_⟩
  rw [data_exact e2]
  simp [Spec.Arpa.session, Spec.Arpa.kept, Spec.Arpa.longestNZ, Spec.Arpa.score, Spec.Arpa.backoff, Spec.Arpa.ofData, data, Spec.unkProb, LogProb.nz]
  norm_num

/-- Insertion sort. -/
def insQ (x : ℚ) : List ℚ → List ℚ
  | [] => [x]
  | y :: l => if x ≤ y then x :: y :: l else y :: insQ x l

/-- The model run. -/
def runP (ro : Nat) (ops : List (Nat × Option Nat)) : Option (List (Option (ℚ × Bool))) :=
  Option.bind (StProb.build fbQ (fun l => l.foldr insQ []) (-1000) 9 (-100) MphExample.mphf (GramsSt.pef (fun _ => [7]) fun _ => [9])
    (RanksImpl.cv fun _ => [0#64]).st ro (-100) 2 2 dataP) fun
    | .ok t => (t.session fbQ 7 1 2 ops).map (·.1)
    | .error () => none

end PefProbExample


open PefProbExample in
/-- C55, defect: the bigram "0 0" is not listed, so the second word of "0 0" should get the -2 of the word 0 plus the backoff -1 of its context; it gets the
-1/2 of the bigram "2 0", because the id 0 is always found.  The same happens to "0 2", which gets the -1/2 of "1 2". -/
theorem C55_absent_bigram_scored_defect :
    ¬ Spec.Listed dataP [0, 0] ∧ ¬ Spec.Listed dataP [0, 2] ∧
    (Spec.Arpa.ofData dataP (-100) (fun _ v => v) (fun _ v => v)).scoreAt [0, 0] 1 0 = -3 ∧
    (Spec.Arpa.ofData dataP (-100) (fun _ v => v) (fun _ v => v)).scoreAt [0, 2] 1 2 = -4 ∧
    runP 0 [(0, some 0), (0, some 0), (1, some 0), (1, some 2)] =
      some [some (-2, false), some (-1/2, false), some (-2, false), some (-1/2, false)] := by
  refine ⟨by decide, by decide, ?_, ?_, by decide +kernel⟩
  all_goals
    simp [Spec.Arpa.scoreAt, Spec.Arpa.lastN, Spec.Arpa.score, Spec.Arpa.backoff, Spec.Arpa.ofData, dataP]
    try norm_num

end Tongrams
