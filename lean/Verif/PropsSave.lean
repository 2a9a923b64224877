import Verif.SaveModels

/-!
# C36: a model that has been saved and loaded gives the same answers
-/

set_option linter.unusedSectionVars false

namespace Tongrams

/-! ## Arrays that answer at least as much -/

/-- `a'` gives all the answers of `a`: where `a` is defined, `a'` is defined and equal. -/
structure SortedArray.Le (a a' : SortedArray) : Prop where
  size : a.size = a'.size
  find : ∀ b e id v, a.find b e id = some v → a'.find b e id = some v
  ranks : ∀ i v, a.ranks i = some v → a'.ranks i = some v
  pair : ∀ i r, a.pair i = some r → a'.pair i = some r

/-- The same for lists of arrays. -/
def LeArrs (l l' : List SortedArray) : Prop := ∀ (i : Nat) (a : SortedArray), l[i]? = some a → ∃ a', l'[i]? = some a' ∧ a.Le a'

theorem mapIn_le {a a' : SortedArray} (h : a.Le a') {r : Nat × Nat} {id v : Nat} (e : mapIn a r id = some v) : mapIn a' r id = some v := by
  unfold mapIn at e ⊢
  obtain ⟨pos, e1, e2⟩ := Option.map_eq_some_iff.1 e
  rw [h.find _ _ _ _ e1]
  exact congrArg some e2

theorem next_le {a a' : SortedArray} (h : a.Le a') {r : Nat × Nat} {id : Nat} {v : Nat × (Nat × Nat)} (e : a.next r id = some v) :
    a'.next r id = some v := by
  unfold SortedArray.next SortedArray.position SortedArray.range at e ⊢
  obtain ⟨pos, e1, e2⟩ := Option.bind_eq_some_iff.1 e
  rw [h.find _ _ _ _ e1, Option.bind_some]
  by_cases hp : pos = NF
  · rw [if_pos hp] at e2 ⊢; exact e2
  · rw [if_neg hp] at e2 ⊢
    obtain ⟨r', e3, e4⟩ := Option.map_eq_some_iff.1 e2
    rw [h.pair _ _ e3]
    exact congrArg some e4

theorem mapId_le {l l' : List SortedArray} (h : LeArrs l l') {ro p pp id v : Nat} (e : mapId l ro p pp id = some v) :
    mapId l' ro p pp id = some v := by
  unfold mapId at e ⊢
  obtain ⟨a0, e1, e2⟩ := Option.bind_eq_some_iff.1 e
  obtain ⟨a0', e1', h0⟩ := h 0 a0 e1
  obtain ⟨r, e3, e4⟩ := Option.bind_eq_some_iff.1 e2
  obtain ⟨a, e5, e6⟩ := Option.bind_eq_some_iff.1 e4
  obtain ⟨a', e5', h5⟩ := h ro a e5
  rw [e1', Option.bind_some]
  have e7 : (if ro = 1 then a0'.range p
      else (a0'.range pp).bind fun r => (l'[1]?).bind fun a1 => (a1.next r p).map (·.2)) = some r := by
    by_cases hr : ro = 1
    · rw [if_pos hr] at e3 ⊢; exact h0.pair _ _ e3
    · rw [if_neg hr] at e3 ⊢
      obtain ⟨r0, f1, f2⟩ := Option.bind_eq_some_iff.1 e3
      obtain ⟨a1, f3, f4⟩ := Option.bind_eq_some_iff.1 f2
      obtain ⟨a1', f3', h1⟩ := h 1 a1 f3
      obtain ⟨n, f5, f6⟩ := Option.map_eq_some_iff.1 f4
      rw [show a0'.range pp = some r0 from h0.pair _ _ f1, Option.bind_some, f3', Option.bind_some, next_le h1 f5]
      exact congrArg some f6
  rw [e7, Option.bind_some, e5', Option.bind_some]
  exact mapIn_le h5 e6

theorem mapQueryLoop_le {K : Type} {voc : K → Option Nat} {l l' : List SortedArray} (h : LeArrs l l') {ro : Nat} :
    ∀ (ws : List K) (order : Nat) (raw wids : List Nat) (v : Option (List Nat)),
      TrieCount.mapQueryLoop voc l ro ws order raw wids = some v → TrieCount.mapQueryLoop voc l' ro ws order raw wids = some v
  | [], _, _, _, _, e => e
  | w :: ws, order, raw, wids, v, e => by
    rw [TrieCount.mapQueryLoop] at e ⊢
    split at e
    · cases e
    · rename_i h1
      rw [if_neg h1]
      obtain ⟨id, e1, e2⟩ := Option.bind_eq_some_iff.1 e
      rw [e1, Option.bind_some]
      split at e2
      · rename_i h2
        rw [if_pos h2]; exact e2
      · rename_i h2
        rw [if_neg h2]
        split at e2
        · cases e2
        · rename_i h3
          rw [if_neg h3]
          split at e2
          · rename_i h4
            rw [if_pos h4]
            exact mapQueryLoop_le h ws _ _ _ _ e2
          · rename_i h4
            rw [if_neg h4]
            obtain ⟨parent, f1, f2⟩ := Option.bind_eq_some_iff.1 e2
            obtain ⟨pp, f3, f4⟩ := Option.bind_eq_some_iff.1 f2
            obtain ⟨m, f5, f6⟩ := Option.bind_eq_some_iff.1 f4
            rw [f1, Option.bind_some, f3, Option.bind_some, mapId_le h f5, Option.bind_some]
            split at f6
            · rename_i h5
              rw [if_pos h5]; exact f6
            · rename_i h5
              rw [if_neg h5]
              exact mapQueryLoop_le h ws _ _ _ _ f6

theorem descend_le {l l' : List SortedArray} (h : LeArrs l l') :
    ∀ (ws : List Nat) (i pos v : Nat), TrieCount.descend l ws i pos = some v → TrieCount.descend l' ws i pos = some v
  | [], _, _, _, e => e
  | w :: ws, i, pos, v, e => by
    rw [TrieCount.descend] at e ⊢
    obtain ⟨a, e1, e2⟩ := Option.bind_eq_some_iff.1 e
    obtain ⟨r, e3, e4⟩ := Option.bind_eq_some_iff.1 e2
    obtain ⟨b, e5, e6⟩ := Option.bind_eq_some_iff.1 e4
    obtain ⟨p, e7, e8⟩ := Option.bind_eq_some_iff.1 e6
    obtain ⟨a', e1', ha⟩ := h _ _ e1
    obtain ⟨b', e5', hb⟩ := h _ _ e5
    rw [e1', Option.bind_some, show a'.range pos = some r from ha.pair _ _ e3, Option.bind_some, e5', Option.bind_some,
      show b'.position r w = some p from hb.find _ _ _ _ e7, Option.bind_some]
    split at e8
    · rename_i h5
      rw [if_pos h5]; exact e8
    · rename_i h5
      rw [if_neg h5]
      exact descend_le h ws _ _ _ e8

theorem lookup_le {K : Type} {t t' : TrieCount K} (ho : t.order = t'.order) (hro : t.ro = t'.ro) (hv : t.voc = t'.voc)
    (hc : t.counts = t'.counts) (ha : LeArrs t.arrs t'.arrs) {words : List K} {v : Nat} (e : t.lookup words = some v) :
    t'.lookup words = some v := by
  unfold TrieCount.lookup at e ⊢
  obtain ⟨m, e1, e2⟩ := Option.bind_eq_some_iff.1 e
  rw [← hro, ← hv, ← ho, ← hc, mapQueryLoop_le ha _ _ _ _ _ e1, Option.bind_some]
  match m, e2 with
  | none, e2 => exact e2
  | some [], e2 => exact e2
  | some (w0 :: wids), e2 =>
    dsimp only at e2 ⊢
    split at e2
    · rename_i h5
      rw [if_pos h5]; exact e2
    · rename_i h5
      rw [if_neg h5]
      obtain ⟨pos, f1, f2⟩ := Option.bind_eq_some_iff.1 e2
      rw [descend_le ha _ _ _ _ f1, Option.bind_some]
      split at f2
      · rename_i h6
        rw [if_pos h6]; exact f2
      · rename_i h6
        rw [if_neg h6]
        obtain ⟨a, f3, f4⟩ := Option.bind_eq_some_iff.1 f2
        obtain ⟨a', f3', h'⟩ := ha _ _ f3
        obtain ⟨rk, f5, f6⟩ := Option.bind_eq_some_iff.1 f4
        rw [f3', Option.bind_some, h'.ranks _ _ f5, Option.bind_some]
        exact f6

/-! ## Scoring with a model that answers at least as much -/

/-- `S'` gives all the answers of `S`. -/
structure Scorer.Le {K Wd F C : Type} (S S' : Scorer K Wd F C) : Prop where
  order : S.order = S'.order
  unk : S.unk = S'.unk
  first : ∀ k v, S.first k = some v → S'.first k = some v
  next : ∀ j c x v, S.next j c x = some v → S'.next j c x = some v

section
variable {K Wd F C : Type} [LogProb F] {S S' : Scorer K Wd F C}

theorem loop_le (h : S.Le S') : ∀ (n : Nat) (l v : Scorer.Loop Wd F C), S.loop n l = some v → S'.loop n l = some v
  | 0, _, _, e => e
  | n + 1, l, v, e => by
    rw [Scorer.loop] at e ⊢
    obtain ⟨x, e1, e2⟩ := Option.bind_eq_some_iff.1 e
    obtain ⟨y, e3, e4⟩ := Option.bind_eq_some_iff.1 e2
    refine Option.bind_eq_some_iff.2 ⟨x, e1, Option.bind_eq_some_iff.2 ⟨y, h.next _ _ _ _ e3, ?_⟩⟩
    match y, e4 with
    | none, e4 => exact e4
    | some (p, none, c), e4 => exact loop_le h n _ _ e4
    | some (p, some b, c), e4 =>
      obtain ⟨st, f1, f2⟩ := Option.bind_eq_some_iff.1 e4
      exact Option.bind_eq_some_iff.2 ⟨st, f1, loop_le h n _ _ f2⟩

theorem score_le (h : S.Le S') {st : PState Wd F} {k : K} {v : PState Wd F × F × Bool} (e : S.score st k = some v) :
    S'.score st k = some v := by
  unfold Scorer.score at e ⊢
  obtain ⟨⟨x, f⟩, e1, e2⟩ := Option.bind_eq_some_iff.1 e
  refine Option.bind_eq_some_iff.2 ⟨(x, f), h.first _ _ e1, ?_⟩
  obtain ⟨st1, e3, e4⟩ := Option.bind_eq_some_iff.1 e2
  refine Option.bind_eq_some_iff.2 ⟨st1, e3, ?_⟩
  match f, e4 with
  | some (p, b, c), e4 =>
    obtain ⟨st2, f1, f2⟩ := Option.bind_eq_some_iff.1 e4
    obtain ⟨l, f3, f4⟩ := Option.bind_eq_some_iff.1 f2
    exact Option.bind_eq_some_iff.2 ⟨st2, f1, Option.bind_eq_some_iff.2 ⟨l, loop_le h _ _ _ f3, f4⟩⟩
  | none, e4 => rw [← h.unk]; exact e4

theorem scoreWords_le (h : S.Le S') : ∀ (ws : List K) (st : PState Wd F) (v : PState Wd F × List (F × Bool)),
    S.scoreWords ws st = some v → S'.scoreWords ws st = some v
  | [], _, _, e => e
  | k :: ks, st, v, e => by
    rw [Scorer.scoreWords] at e ⊢
    obtain ⟨⟨st1, p, o⟩, e1, e2⟩ := Option.bind_eq_some_iff.1 e
    refine Option.bind_eq_some_iff.2 ⟨(st1, p, o), score_le h e1, ?_⟩
    obtain ⟨⟨st2, ps⟩, e3, e4⟩ := Option.bind_eq_some_iff.1 e2
    exact Option.bind_eq_some_iff.2 ⟨(st2, ps), scoreWords_le h ks st1 _ e3, e4⟩

theorem scoreSentence_le (h : S.Le S') {d : Wd} {one : F} {ws : List K} {v : List (F × Bool)}
    (e : S.scoreSentence d one ws = some v) : S'.scoreSentence d one ws = some v := by
  unfold Scorer.scoreSentence at e ⊢
  obtain ⟨st, e1, e2⟩ := Option.bind_eq_some_iff.1 e
  obtain ⟨⟨st', ps⟩, e3, e4⟩ := Option.bind_eq_some_iff.1 e2
  rw [← h.order]
  exact Option.bind_eq_some_iff.2 ⟨st, e1, Option.bind_eq_some_iff.2 ⟨(st', ps), scoreWords_le h _ _ _ e3, e4⟩⟩

theorem lineLoop_le (h : S.Le S') : ∀ (ws : List K) (st : PState Wd F) (a b : F) (v : PState Wd F × F × F),
    S.lineLoop ws st a b = some v → S'.lineLoop ws st a b = some v
  | [], _, _, _, _, e => e
  | k :: ks, st, a, b, v, e => by
    rw [Scorer.lineLoop] at e ⊢
    obtain ⟨⟨st1, p, o⟩, e1, e2⟩ := Option.bind_eq_some_iff.1 e
    exact Option.bind_eq_some_iff.2 ⟨(st1, p, o), score_le h e1, lineLoop_le h ks _ _ _ _ e2⟩

theorem corpusLoop_le (h : S.Le S') : ∀ (ls : List (List K)) (st : PState Wd F) (t : Totals F) (v : PState Wd F × Totals F),
    S.corpusLoop ls st t = some v → S'.corpusLoop ls st t = some v
  | [], _, _, _, e => e
  | l :: ls, st, t, v, e => by
    rw [Scorer.corpusLoop] at e ⊢
    obtain ⟨st1, e1, e2⟩ := Option.bind_eq_some_iff.1 e
    obtain ⟨⟨st2, p, o⟩, e3, e4⟩ := Option.bind_eq_some_iff.1 e2
    exact Option.bind_eq_some_iff.2 ⟨st1, e1, Option.bind_eq_some_iff.2 ⟨(st2, p, o), lineLoop_le h _ _ _ _ _ e3, corpusLoop_le h ls _ _ _ e4⟩⟩

theorem scoreCorpus_le (h : S.Le S') {d : Wd} {one : F} {ls : List (List K)} {v : Totals F}
    (e : S.scoreCorpus d one ls = some v) : S'.scoreCorpus d one ls = some v := by
  unfold Scorer.scoreCorpus at e ⊢
  obtain ⟨st, e1, e2⟩ := Option.bind_eq_some_iff.1 e
  obtain ⟨⟨st', ps⟩, e3, e4⟩ := Option.bind_eq_some_iff.1 e2
  rw [← h.order]
  exact Option.bind_eq_some_iff.2 ⟨st, e1, Option.bind_eq_some_iff.2 ⟨(st', ps), corpusLoop_le h _ _ _ _ e3, e4⟩⟩

end

theorem scorer_le {K F : Type} [DecidableEq K] [FloatArith F] (fb : FloatBits F) {t t' : TrieProb K F}
    (ho : t.order = t'.order) (hro : t.ro = t'.ro) (hu : t.unk = t'.unk) (hv : t.voc = t'.voc) (hps : t.ps = t'.ps) (hbs : t.bs = t'.bs)
    (hpb : t.pb = t'.pb) (ha : LeArrs t.arrs t'.arrs) : (t.scorer fb).Le (t'.scorer fb) where
  order := ho
  unk := hu
  first k v e := by
    unfold TrieProb.scorer at e ⊢
    dsimp only at e ⊢
    obtain ⟨p, e1, e2⟩ := Option.bind_eq_some_iff.1 e
    rw [← hv, e1, Option.bind_some]
    split at e2
    · rename_i h5
      rw [if_pos h5]; exact e2
    · rename_i h5
      rw [if_neg h5]
      obtain ⟨a, f1, f2⟩ := Option.bind_eq_some_iff.1 e2
      obtain ⟨a', f1', h'⟩ := ha _ _ f1
      obtain ⟨r, f3, f4⟩ := Option.map_eq_some_iff.1 f2
      rw [f1', Option.bind_some, show a'.range p.1.toNat = some r from h'.pair _ _ f3, Option.map_some]
      exact congrArg some f4
  next j c x v e := by
    unfold TrieProb.scorer at e ⊢
    dsimp only at e ⊢
    split at e
    · rename_i h5
      rw [if_pos h5]; exact e
    · rename_i h5
      rw [if_neg h5, ← hro]
      obtain ⟨id', e1, e2⟩ := Option.bind_eq_some_iff.1 e
      have e1' : (if t.ro ≠ 0 ∧ t.ro < j then mapId t'.arrs t.ro c.prev c.prevPrev x else some x) = some id' := by
        split at e1
        · rename_i h6
          rw [if_pos h6]; exact mapId_le ha e1
        · rename_i h6
          rw [if_neg h6]; exact e1
      rw [e1', Option.bind_some]
      obtain ⟨a, f1, f2⟩ := Option.bind_eq_some_iff.1 e2
      obtain ⟨a', f1', h'⟩ := ha _ _ f1
      obtain ⟨pos, f3, f4⟩ := Option.bind_eq_some_iff.1 f2
      rw [f1', Option.bind_some, show a'.position c.range id' = some pos from h'.find _ _ _ _ f3, Option.bind_some]
      split at f4
      · rename_i h7
        rw [if_pos h7]; exact f4
      · rename_i h7
        rw [if_neg h7]
        obtain ⟨rk, g1, g2⟩ := Option.bind_eq_some_iff.1 f4
        rw [h'.ranks _ _ g1, Option.bind_some, ← hps, ← hbs, ← hpb, ← ho]
        obtain ⟨p, g3, g4⟩ := Option.bind_eq_some_iff.1 g2
        rw [g3, Option.bind_some]
        split at g4
        · rename_i h8
          rw [if_pos h8]
          obtain ⟨b, k1, k2⟩ := Option.bind_eq_some_iff.1 g4
          obtain ⟨r, k3, k4⟩ := Option.map_eq_some_iff.1 k2
          rw [k1, Option.bind_some, show a'.range pos = some r from h'.pair _ _ k3, Option.map_some]
          exact congrArg some k4
        · rename_i h8
          rw [if_neg h8]; exact g4

/-! ## fast_ef_sequence: an offsets table that was not built is not read -/

theorem FastEF.treeSearch_offsets (f : FastEF) (o : Option (UTable Nat 64)) (base id : Nat) : ∀ (h i lo hi lb : Nat),
    FastEF.treeSearch { f with offsets := o } base id h i lo hi lb = FastEF.treeSearch f base id h i lo hi lb
  | 0, _, _, _, _ => rfl
  | h + 1, i, lo, hi, lb => by
    rw [FastEF.treeSearch, FastEF.treeSearch]
    simp only [FastEF.treeSearch_offsets f o base id h]

theorem FastEF.find_junk (f : FastEF) (junk : UTable Nat 64) {lo hi id v : Nat} (e : f.find lo hi id = some v) :
    FastEF.find { f with offsets := some (f.offsets.getD junk) } lo hi id = some v := by
  unfold FastEF.find at e ⊢
  split at e
  · rename_i h
    rw [if_pos h]
    obtain ⟨t, e1, e2⟩ := Option.bind_eq_some_iff.1 e
    simp only [e1, Option.getD_some, Option.bind_some, FastEF.treeSearch_offsets]
    exact e2
  · rename_i h
    rw [if_neg h]
    exact e

/-! ## Tries -/

/-- What the theorems below use of a type of sequences: a saved sequence is loaded back as one that gives all its
answers. -/
structure Codec (G : GramsData) (R : RanksData) : Prop where
  grams : ∀ d, G.fits d → ∃ d', Spec.Reads G.load (G.save d) d' ∧ ∀ b e id v, G.find d b e id = some v → G.find d' b e id = some v
  ranks : ∀ d, R.fits d → Spec.Reads R.load (R.save d) d

/-- The sequence types of the tries (lm_types.hpp:40-93) that store the ranks. -/
inductive RanksData.Std : RanksData → Prop
  | ic : RanksData.Std RanksData.ic
  | psef : RanksData.Std RanksData.psef
  | cv : RanksData.Std RanksData.cv

theorem Codec.std (h : Nat → Mphf Nat 64) (c : Emphf Nat 64) (junk : UTable Nat 64) {R : RanksData} (hR : R.Std) :
    Codec (GramsData.fastEF h c junk) R where
  grams d hd := ⟨_, C36_fast_ef hd.1 hd.2, fun _ _ _ _ e => d.find_junk junk e⟩
  ranks := by
    cases hR with
    | ic => exact fun d hd => C36_indexed_codewords hd
    | psef => exact fun d hd => C36_prefix_summed hd
    | cv => exact fun d hd => C36_compact_vector hd

namespace ArrayStore
variable {G : GramsData} {R : RanksData}

/-- The numbers of an array of the given order fit their members; order 1 has no grams, and ranks only if they are saved. -/
def Fits (j : Junk G R) (order : Nat) (withRanks : Bool) (a : ArrayStore G R) : Prop :=
  a.size < 2 ^ 64 ∧ (order = 1 → a.grams = none) ∧ (order ≠ 1 → G.fits (a.grams.getD j.grams)) ∧
    (withRanks = false → a.ranks = none) ∧ (withRanks = true → R.fits (a.ranks.getD j.ranks)) ∧ (a.ptrs.getD j.ptrs).Fits

theorem load_save (hc : Codec G R) {j : Junk G R} {order : Nat} {wr : Bool} {a : ArrayStore G R} (h : a.Fits j order wr) :
    ∃ a', Spec.Reads (load G R order wr) (a.save j order wr) a' ∧ ∀ mem, (a.toModel mem).Le (a'.toModel mem) := by
  obtain ⟨h1, h2, h3, h4, h5, h6⟩ := h
  have hg : ∃ g : Option G.D, Spec.Reads (if order ≠ 1 then Rd.bind G.load fun d => Rd.ret (some d) else Rd.ret none)
      (if order ≠ 1 then G.save (a.grams.getD j.grams) else []) g ∧
      ∀ b e id v, (a.grams.bind fun d => G.find d b e id) = some v → (g.bind fun d => G.find d b e id) = some v := by
    by_cases ho : order = 1
    · refine ⟨none, ?_, ?_⟩
      · rw [if_neg (by simp [ho]), if_neg (by simp [ho])]; exact .ret _
      · rw [h2 ho]; exact fun _ _ _ _ e => e
    · obtain ⟨d', e1, e2⟩ := hc.grams _ (h3 ho)
      refine ⟨some d', ?_, ?_⟩
      · rw [if_pos ho, if_pos ho]; exact .last e1 rfl
      · intro b e id v ev
        obtain ⟨d, f1, f2⟩ := Option.bind_eq_some_iff.1 ev
        rw [f1, Option.getD_some] at e2
        exact e2 _ _ _ _ f2
  have hr : ∃ r : Option R.E, Spec.Reads (if wr then Rd.bind R.load fun d => Rd.ret (some d) else Rd.ret none)
      (if wr then R.save (a.ranks.getD j.ranks) else []) r ∧
      ∀ mem i v, (a.ranks.bind fun d => R.get mem d i) = some v → (r.bind fun d => R.get mem d i) = some v := by
    cases hw : wr with
    | false =>
      refine ⟨none, ?_, ?_⟩
      · exact .ret _
      · rw [h4 hw]; exact fun _ _ _ e => e
    | true =>
      refine ⟨some (a.ranks.getD j.ranks), ?_, ?_⟩
      · rw [if_pos rfl, if_pos rfl]
        exact .last (hc.ranks _ (h5 hw)) rfl
      · intro mem i v ev
        obtain ⟨d, f1, f2⟩ := Option.bind_eq_some_iff.1 ev
        rw [f1, Option.getD_some]
        exact f2
  obtain ⟨g, g1, g2⟩ := hg
  obtain ⟨r, r1, r2⟩ := hr
  refine ⟨⟨a.size, g, r, some (a.ptrs.getD j.ptrs)⟩, .bind (getU8 h1) (.bind g1 (.bind r1 (.last (C36_ef_sequence h6) rfl))), ?_⟩
  intro mem
  refine ⟨rfl, g2, r2 mem, ?_⟩
  intro i v ev
  obtain ⟨d, f1, f2⟩ := Option.bind_eq_some_iff.1 ev
  show (some (a.ptrs.getD j.ptrs)).bind (fun e => e.pair i) = _
  rw [f1, Option.getD_some]
  exact f2

theorem loadFrom_save (hc : Codec G R) {j : Junk G R} : ∀ (l : List (ArrayStore G R)) (k : Nat),
    (∀ (i : Nat) (a : ArrayStore G R), l[i]? = some a → a.Fits j (k + i) true) →
    ∃ l', Spec.Reads (loadFrom G R k l.length) (saveFrom j k l) l' ∧ ∀ mem, LeArrs (l.map (toModel mem)) (l'.map (toModel mem))
  | [], k, _ => ⟨[], fun _ => rfl, fun mem i a e => by simp at e⟩
  | a :: l, k, h => by
    obtain ⟨a', e1, e2⟩ := load_save hc (h 0 a rfl)
    obtain ⟨l', e3, e4⟩ := loadFrom_save hc l (k + 1) (fun i b hb => by
      have := h (i + 1) b hb
      rwa [show k + 1 + i = k + (i + 1) by omega])
    refine ⟨a' :: l', .bind e1 (.last e3 rfl), ?_⟩
    intro mem i b hb
    cases i with
    | zero => exact ⟨_, rfl, by cases hb; exact e2 mem⟩
    | succ i => exact e4 mem i b hb

theorem loadAll_save (hc : Codec G R) {j : Junk G R} {fr : Bool} {l : List (ArrayStore G R)} (hne : l ≠ [])
    (h0 : ∀ a, l[0]? = some a → a.Fits j 1 fr)
    (h : ∀ (i : Nat) (a : ArrayStore G R), 1 ≤ i → l[i]? = some a → a.Fits j (i + 1) true) :
    ∃ l', Spec.Reads (loadAll G R fr l.length) (saveAll j fr l) l' ∧ ∀ mem, LeArrs (l.map (toModel mem)) (l'.map (toModel mem)) := by
  cases l with
  | nil => exact absurd rfl hne
  | cons a l =>
    obtain ⟨a', e1, e2⟩ := load_save hc (h0 a rfl)
    obtain ⟨l', e3, e4⟩ := loadFrom_save hc l 2 (fun i b hb => by
      have := h (i + 1) b (by omega) hb
      rwa [show 2 + i = i + 1 + 1 by omega])
    refine ⟨a' :: l', ?_, ?_⟩
    · rw [List.length_cons, loadAll, saveAll]
      exact .bind e1 (.last e3 rfl)
    intro mem i b hb
    cases i with
    | zero => exact ⟨_, rfl, by cases hb; exact e2 mem⟩
    | succ i => exact e4 mem i b hb

end ArrayStore

/-- The arrays of a trie fit, those of order 1 having ranks or not. -/
def Spec.ArraysFit {G : GramsData} {R : RanksData} (j : Junk G R) (firstRanks : Bool) (l : List (ArrayStore G R)) : Prop :=
  (∀ a, l[0]? = some a → a.Fits j 1 firstRanks) ∧ ∀ (i : Nat) (a : ArrayStore G R), 1 ≤ i → l[i]? = some a → a.Fits j (i + 1) true

/-- The numbers of a count trie fit their members. -/
def TrieCountStore.Fits {K : Type} {G : GramsData} {R : RanksData} (c : Emphf K 64) (j : Junk G R) (s : TrieCountStore K G R) : Prop :=
  1 ≤ s.order ∧ s.order < 256 ∧ s.ro < 256 ∧ s.counts.length = s.order ∧ s.arrs.length = s.order ∧ (∀ x ∈ s.counts, x.Fits) ∧ s.voc.Fits c ∧
    Spec.ArraysFit j true s.arrs

/-- The numbers of a backoff trie fit their members. -/
def TrieProbStore.Fits {K F : Type} {G : GramsData} {R : RanksData} (fb : FloatBits F) (c : Emphf K 64) (j : Junk G R)
    (s : TrieProbStore K F G R) : Prop :=
  2 ≤ s.order ∧ s.order < 256 ∧ s.ro < 256 ∧ Spec.IsFloat fb s.unk ∧ s.pb < 256 ∧ s.ps.length = s.order - 1 ∧ s.bs.length = s.order - 2 ∧
    s.arrs.length = s.order ∧ Spec.FloatLists fb s.ps ∧ Spec.FloatLists fb s.bs ∧ s.voc.Fits c ∧ Spec.ArraysFit j false s.arrs

/-- The loaded count trie has the remapping order of the saved one and answers as it does. -/
theorem TrieCountStore.load_le {K : Type} {G : GramsData} {R : RanksData} (hc : Codec G R) {c : Emphf K 64} {j : Junk G R}
    {s : TrieCountStore K G R} (h : s.Fits c j) :
    ∃ s', Spec.Reads (TrieCountStore.load G R c) (s.save c j) s' ∧ s'.ro = s.ro ∧
      ∀ (mem : List W) (words : List K) (v : Nat), (s.toModel mem).lookup words = some v → (s'.toModel mem).lookup words = some v := by
  obtain ⟨h0, h1, h2, h3, h4, h5, h6, h7⟩ := h
  obtain ⟨l', e1, e2⟩ := ArrayStore.loadAll_save hc (l := s.arrs) (by intro e; rw [e] at h4; simp at h4; omega) h7.1 h7.2
  rw [h4] at e1
  have ec := getN_putAll fun x hx => C36_compact_vector (h5 x hx)
  rw [h3] at ec
  refine ⟨⟨s.order, s.ro, s.voc, l', s.counts⟩, .bind (getU1 h1) (.bind (getU1 h2) (.bind ec (.bind ((C36_tables rfl).1 _ h6) (.last e1 rfl)))), rfl, ?_⟩
  intro mem words v e
  exact lookup_le (t := s.toModel mem) (t' := (⟨s.order, s.ro, s.voc, l', s.counts⟩ : TrieCountStore K G R).toModel mem) rfl rfl rfl rfl (e2 mem) e

/-- C36: a saved count trie is loaded back, consuming exactly the bytes written, as a trie that gives the same answer to
every query that has one, whatever the sequences that were not built contain and whatever lies in memory (`mem`) after the
arrays. -/
theorem C36_trie_count {K : Type} {G : GramsData} {R : RanksData} (hc : Codec G R) {c : Emphf K 64} {j : Junk G R}
    {s : TrieCountStore K G R} (h : s.Fits c j) :
    ∃ s', Spec.Reads (TrieCountStore.load G R c) (s.save c j) s' ∧
      ∀ (mem : List W) (words : List K) (v : Nat), (s.toModel mem).lookup words = some v → (s'.toModel mem).lookup words = some v := by
  obtain ⟨s', e1, -, e2⟩ := TrieCountStore.load_le hc h
  exact ⟨s', e1, e2⟩

/-- The loaded backoff trie answers every step of a scoring as the saved one does, if that is defined. -/
theorem TrieProbStore.load_ro_le {K F : Type} [DecidableEq K] [FloatArith F] {G : GramsData} {R : RanksData}
    (hc : Codec G R) {fb : FloatBits F} {c : Emphf K 64} {j : Junk G R} {bb : Nat} (hbb : bb < 256)
    {s : TrieProbStore K F G R} (h : s.Fits fb c j) :
    ∃ s', Spec.Reads (TrieProbStore.load G R fb c) (s.save fb c j bb) s' ∧ s'.ro = s.ro ∧
      ∀ mem : List W, ((s.toModel mem).scorer fb).Le ((s'.toModel mem).scorer fb) := by
  obtain ⟨h0, h1, h2, h3, h4, h5, h6, h7, h8, h9, h10, h11⟩ := h
  obtain ⟨l', e1, e2⟩ := ArrayStore.loadAll_save hc (l := s.arrs) (by intro e; rw [e] at h7; simp at h7; omega) h11.1 h11.2
  rw [h7] at e1
  have hp := loadQuantized_save h4 h8
  have hb := loadQuantized_save hbb h9
  rw [h5] at hp
  rw [h6] at hb
  have hd : (List.replicate (s.order - 1) s.pb).headD 0 = s.pb := by
    obtain ⟨n, hn⟩ : ∃ n, s.order - 1 = n + 1 := ⟨s.order - 2, by omega⟩
    rw [hn]; rfl
  have hle : ∀ mem, ((s.toModel mem).scorer fb).Le (((⟨s.order, s.ro, s.unk, s.voc, l', s.ps, s.bs, s.pb⟩ :
      TrieProbStore K F G R).toModel mem).scorer fb) := fun mem => scorer_le fb rfl rfl rfl rfl rfl rfl rfl (e2 mem)
  refine ⟨⟨s.order, s.ro, s.unk, s.voc, l', s.ps, s.bs, s.pb⟩, ?_, rfl, hle⟩
  refine .bind (getU1 h1) (.bind (getU1 h2) (.bind (getF_putF h3) ?_))
  rw [if_neg (by omega)]
  refine .bind hp (.bind hb (.bind ((C36_tables rfl).2.1 _ h10) (.last e1 ?_)))
  show Rd.ret (⟨s.order, s.ro, s.unk, s.voc, l', s.ps, s.bs, (List.replicate (s.order - 1) s.pb).headD 0⟩ : TrieProbStore K F G R) = _
  rw [hd]

/-- The same without the remapping order. -/
theorem TrieProbStore.load_le {K F : Type} [DecidableEq K] [FloatArith F] {G : GramsData} {R : RanksData}
    (hc : Codec G R) {fb : FloatBits F} {c : Emphf K 64} {j : Junk G R} {bb : Nat} (hbb : bb < 256)
    {s : TrieProbStore K F G R} (h : s.Fits fb c j) :
    ∃ s', Spec.Reads (TrieProbStore.load G R fb c) (s.save fb c j bb) s' ∧
      ∀ mem : List W, ((s.toModel mem).scorer fb).Le ((s'.toModel mem).scorer fb) := by
  obtain ⟨s', e1, -, e2⟩ := TrieProbStore.load_ro_le hc hbb h
  exact ⟨s', e1, e2⟩

/-- C36: a saved backoff trie is loaded back, consuming exactly the bytes written, as a trie that gives the same scores to
every sentence and corpus that have some. -/
theorem C36_trie_prob {K F : Type} [DecidableEq K] [FloatArith F] {G : GramsData} {R : RanksData}
    (hc : Codec G R) {fb : FloatBits F} {c : Emphf K 64} {j : Junk G R} {bb : Nat} (hbb : bb < 256)
    {s : TrieProbStore K F G R} (h : s.Fits fb c j) :
    ∃ s', Spec.Reads (TrieProbStore.load G R fb c) (s.save fb c j bb) s' ∧
      (∀ (mem : List W) (d : Nat) (one : F) (sentence : List K) (v : List (F × Bool)),
        ((s.toModel mem).scorer fb).scoreSentence d one sentence = some v →
        ((s'.toModel mem).scorer fb).scoreSentence d one sentence = some v) ∧
      ∀ (mem : List W) (d : Nat) (one : F) (text : List (List K)) (v : Totals F),
        ((s.toModel mem).scorer fb).scoreCorpus d one text = some v →
        ((s'.toModel mem).scorer fb).scoreCorpus d one text = some v := by
  obtain ⟨s', e1, hle⟩ := TrieProbStore.load_le hc hbb h
  exact ⟨s', e1, fun mem d one sen v e => scoreSentence_le (hle mem) e, fun mem d one tx v e => scoreCorpus_le (hle mem) e⟩

/-! ## Files -/

/-- C36: loading the file that was saved gives what the structure's `load` gives, and reports as number of bytes the size of
the file. -/
theorem C36_file {α : Type} {g : Rd α} {body : List Byte} {x : α} (h : Spec.Reads g body x) (header : Byte) :
    loadFile g (saveFile header body) = some (x, (saveFile header body).length) := by
  have e : Spec.Reads (Rd.bind (getWord 8 1) fun _ => g) (saveFile header body) x :=
    .bind (getWord_putWord (by omega) header) h
  have := e []
  rw [List.append_nil] at this
  unfold loadFile
  rw [this]
  simp

/-! ## From the input to the answers of the loaded model -/

/-- The sequence types that store the ranks of counts, with their data. -/
def CountRanks.data : CountRanks → RanksData
  | .ic => RanksData.ic
  | .psef => RanksData.psef

theorem CountRanks.data_impl (cr : CountRanks) (mem : List W) : cr.data.impl mem = cr.impl := by
  cases cr
  · exact RanksData.ic_impl mem
  · exact RanksData.psef_impl mem

theorem CountRanks.data_std (cr : CountRanks) : cr.data.Std := by
  cases cr
  · exact .ic
  · exact .psef

/-- C36 and C24: a count trie built from n-gram files, written to a file and loaded from it returns the count of every n-gram of
the input files. -/
theorem C36_loaded_count_trie_returns_counts {K : Type} [DecidableEq K] {L : SortLib} (hL : L.Valid) {U : List K}
    {files : List (List (List K × Nat))} {ro : Nat} (h : Spec.CountFiles U files ro) {hv : Mphf K 64} (hb : hv.BuiltFrom U)
    {hr : Nat → Mphf Nat 64} (hh : Spec.RangeHashes hr files) (cr : CountRanks) (hcr : cr = .psef → ∀ f ∈ files, f.length < 2 ^ 32)
    (c : Emphf K 64) (c' : Emphf Nat 64) (junk : UTable Nat 64) (j : Junk (GramsData.fastEF hr c' junk) cr.data) (header : Byte) :
    ∃ s : TrieCountStore K (GramsData.fastEF hr c' junk) cr.data, TrieCountStore.build L hv _ _ ro files = some (.ok s) ∧
      (s.Fits c j → ∃ s' n, loadFile (TrieCountStore.load (GramsData.fastEF hr c' junk) cr.data c) (saveFile header (s.save c j)) = some (s', n) ∧
        ∀ (mem : List W), ∀ f ∈ files, ∀ gram count, (gram, count) ∈ f → (s'.toModel mem).lookup gram = some count) := by
  have key : ∀ mem : List W, Res.map (TrieCountStore.toModel mem) (TrieCountStore.build L hv (GramsData.fastEF hr c' junk) cr.data ro files) =
      TrieCount.build L hv (GramsImpl.fastEF hr) cr.impl ro files := by
    intro mem
    rw [← TrieCountStore.build_impl, GramsData.fastEF_impl, CountRanks.data_impl]
  obtain ⟨t, e1, e2⟩ := C24_stored_gram_returns_its_count hL h hb hh cr hcr
  rcases hs : TrieCountStore.build L hv (GramsData.fastEF hr c' junk) cr.data ro files with _ | _ | s
  · have := key []; rw [hs, e1] at this; cases this
  · have := key []; rw [hs, e1] at this; cases this
  · refine ⟨s, rfl, fun hf => ?_⟩
    obtain ⟨s', f1, f2⟩ := C36_trie_count (Codec.std hr c' junk cr.data_std) hf
    refine ⟨s', _, C36_file f1 header, ?_⟩
    intro mem f hf gram count hm
    have hk := key mem
    rw [hs, e1] at hk
    have ht : s.toModel mem = t := by
      simpa [Res.map, Res.bind] using hk
    exact f2 mem gram count (by rw [ht]; exact e2 f hf gram count hm)

/-- C36 and C27: a backoff trie built from the sections of an ARPA file, written to a file and loaded from it gives every
sentence the scores that the back-off rule gives with the quantised values of the sections. -/
theorem C36_loaded_backoff_trie_scores {K F : Type} [DecidableEq K] [FloatArith F]
    (fb : FloatBits F) {sort : List F → List F} (hsort : ∀ l, (sort l).Perm l ∧ (sort l).Pairwise (· ≤ ·))
    (negInf : F) (unkWord : K) (default unk : F) {U : List K} {data : List (List (List K × F × F))} {ro pb bb : Nat}
    (h : Spec.ProbFiles U data ro) (hq : Spec.Quantisable data pb bb) (hbits : pb + bb ≤ 58)
    (hfb : ∀ f0, data[0]? = some f0 → ∀ r ∈ f0, fb.dec (fb.enc r.2.1) = r.2.1 ∧ fb.dec (fb.enc r.2.2) = r.2.2)
    {hv : Mphf K 64} (hb : hv.BuiltFrom U) {hr : Nat → Mphf Nat 64} (hh : Spec.RangeHashes hr (TrieProb.asCounts data))
    (c : Emphf K 64) (c' : Emphf Nat 64) (junk : UTable Nat 64) (j : Junk (GramsData.fastEF hr c' junk) RanksData.cv) (header : Byte) :
    ∃ (s : TrieProbStore K F (GramsData.fastEF hr c' junk) RanksData.cv),
      TrieProbStore.build fb sort negInf unkWord default hv _ _ ro unk pb bb data = some (.ok s) ∧
      (s.Fits fb c j → ∃ s' n, loadFile (TrieProbStore.load (GramsData.fastEF hr c' junk) RanksData.cv fb c) (saveFile header (s.save fb c j bb)) = some (s', n) ∧
        ∀ mem : List W, mem ≠ [] → ∃ qp qb, Spec.Quantised data pb bb qp qb ∧
          ∀ (sentence : List K) (d : Nat) (one : F), (∀ w ∈ sentence, Spec.Recognised hv U w) →
            ((s'.toModel mem).scorer fb).scoreSentence d one sentence =
              some ((Spec.Arpa.ofData data (Spec.unkProb unkWord default (data.getD 0 []) unk) qp qb).wordScores sentence)) := by
  have key : ∀ mem : List W, Res.map (TrieProbStore.toModel mem)
      (TrieProbStore.build fb sort negInf unkWord default hv (GramsData.fastEF hr c' junk) RanksData.cv ro unk pb bb data) =
      TrieProb.build fb sort negInf unkWord default hv (GramsImpl.fastEF hr) (RanksImpl.cv fun _ => mem) ro unk pb bb data := by
    intro mem
    rw [← TrieProbStore.build_impl, GramsData.fastEF_impl, RanksData.cv_impl]
  have hbuild := fun (mem : List W) (hm : mem ≠ []) => C27_trie_sentence_scores fb hsort negInf unkWord default unk h hq hbits hfb hb hh
    (junk := fun _ => mem) (fun _ => hm)
  obtain ⟨t0, -, -, g1, -⟩ := hbuild [0#64] (by simp)
  rcases hs : TrieProbStore.build fb sort negInf unkWord default hv (GramsData.fastEF hr c' junk) RanksData.cv ro unk pb bb data with _ | _ | s
  · have := key [0#64]; rw [hs, g1] at this; cases this
  · have := key [0#64]; rw [hs, g1] at this; cases this
  · refine ⟨s, rfl, fun hf => ?_⟩
    obtain ⟨s', f1, f2, -⟩ := C36_trie_prob (Codec.std hr c' junk .cv) (bb := bb) (by omega) hf
    refine ⟨s', _, C36_file f1 header, ?_⟩
    intro mem hm
    obtain ⟨t, qp, qb, e1, e2, e3⟩ := hbuild mem hm
    refine ⟨qp, qb, e2, fun sentence d one hrec => ?_⟩
    have hk := key mem
    rw [hs, e1] at hk
    have ht : s.toModel mem = t := by
      simpa [Res.map, Res.bind] using hk
    exact f2 mem d one sentence _ (by rw [ht]; exact e3 sentence d one hrec)

/-! ## Concrete cases -/

namespace SaveExample

/-- A library of two hashers on naturals, told apart by one byte, and pairs of bits written in one byte each. -/
def codec : Emphf Nat 64 where
  saveHasher f := putU 1 (f 1).1.toNat
  loadHasher := Rd.bind (getU 1) fun b => Rd.ret (if b = 0 then FastEF.exMphf.hasher else MphExample.hasher)
  savePairs := putVec (putU 1)
  loadPairs := getVec (getU 1)

/-- What an unbuilt table contains. -/
def junkTable : UTable Nat 64 := ⟨⟨77, 3, FastEF.exMphf.hasher, []⟩, ⟨5, 7, 9, []⟩⟩

theorem pairs {l : List Nat} (h1 : l.length < 2 ^ 64) (h : ∀ v ∈ l, v < 256) : Spec.Reads codec.loadPairs (codec.savePairs l) l :=
  getVec_putVec h1 fun v hv => getU1 (h v hv)

theorem hashers : Spec.Reads codec.loadHasher (codec.saveHasher FastEF.exMphf.hasher) FastEF.exMphf.hasher ∧
    Spec.Reads codec.loadHasher (codec.saveHasher MphExample.hasher) MphExample.hasher :=
  ⟨fun _ => rfl, fun _ => rfl⟩

theorem mphf_fits : Mphf.Fits codec MphExample.mphf :=
  ⟨by decide, by decide, hashers.2, pairs (by decide) (by decide)⟩

/-- Non-vacuity: a table with 4-bit values under this library. -/
example : Spec.Reads (UTable.load codec) (UTable.save codec ⟨MphExample.mphf, MphExample.values⟩) ⟨MphExample.mphf, MphExample.values⟩ :=
  (C36_tables rfl).2.2 _ ⟨mphf_fits, by decide, by decide, by decide⟩

/-- Pointers of a trie: the sequence 0, 2, 4 (as built by `EF.build`). -/
def ptrs : EF := ⟨3, 0, ⟨8, [0x29#64]⟩, ⟨3, [0], [0], []⟩, ⟨1, [0]⟩⟩

theorem ptrs_fits : ptrs.Fits := by
  unfold EF.Fits BitVector.Fits DArray.Fits ptrs
  decide

/-- What sequences that were not built contain. -/
def junk (R : RanksData) (r : R.E) (h : Nat → Mphf Nat 64) : Junk (GramsData.fastEF h codec junkTable) R :=
  ⟨⟨ptrs, none, [1, 2]⟩, r, ⟨2 ^ 64 - 1, 255, ⟨0, []⟩, DArray.empty, ⟨0, []⟩⟩⟩

/-- An empty sequence of ranks. -/
def icJunk : ICSeq := ⟨0, ⟨0, []⟩, ⟨0, []⟩, DArray.empty⟩

/-- An empty vector of ranks. -/
def cvJunk : CompactVector := ⟨0, 0, 0, []⟩

/-- A sequence of ranks. -/
def icRanks : ICSeq := ⟨2, ⟨4, [5]⟩, ⟨5, [0x15]⟩, ⟨3, [0], [0], []⟩⟩

theorem icRanks_fits : icRanks.Fits := by
  simp [icRanks, ICSeq.Fits, BitVector.Fits, DArray.Fits]

/-- A vector of ranks. -/
def cvRanks : CompactVector := ⟨4, 2, 3, [0xe4]⟩

/-- A count trie of order 2. -/
def count : TrieCountStore Nat (GramsData.fastEF (fun _ => FastEF.exMphf) codec junkTable) RanksData.ic :=
  { order := 2, ro := 0, voc := ⟨MphExample.mphf, ⟨3, 2, 3, [5, 6, 7, 0]⟩⟩,
    arrs := [⟨2, none, some icRanks, some ptrs⟩,
             ⟨4, some ⟨ptrs, none, []⟩, some icRanks, none⟩],
    counts := [⟨1, 3, 7, [4]⟩, ⟨2, 3, 7, [11]⟩] }

theorem junk_fits : junkTable.Fits codec := ⟨⟨by decide, by decide, hashers.1, pairs (by decide) (by decide)⟩, by decide, by decide, by decide⟩

theorem fef_fits (s : List Nat) (h : s.length < 2 ^ 64) (hs : ∀ v ∈ s, v < 2 ^ 64) : FastEF.Fits codec ⟨ptrs, none, s⟩ :=
  ⟨ptrs_fits, by simp, h, hs⟩

/-- Non-vacuity: this trie fits its members. -/
theorem count_fits : count.Fits codec (junk RanksData.ic icJunk _) := by
  refine ⟨by decide, by decide, by decide, rfl, rfl, ?_, ⟨mphf_fits, by decide, by decide, by decide⟩, ?_, ?_⟩
  · intro x hx
    simp [count] at hx
    rcases hx with rfl | rfl <;> exact ⟨by decide, by decide, by decide⟩
  · intro a ha
    simp [count] at ha; subst ha
    refine ⟨by decide, fun _ => rfl, fun h => absurd rfl h, (by simp), fun _ => icRanks_fits, ptrs_fits⟩
  · intro i a hi ha
    obtain rfl : i = 1 := by
      have := (List.getElem?_eq_some_iff.1 ha).1
      simp [count] at this; omega
    simp [count] at ha; subst ha
    refine ⟨by decide, fun h => absurd h (by decide), fun _ => ⟨fef_fits [] (by decide) (by decide), junk_fits⟩, (by simp), fun _ => icRanks_fits, ?_⟩
    · simp [junk, EF.Fits, BitVector.Fits, DArray.Fits, DArray.empty]

/-- A backoff trie of order 2 (values are integers). -/
def prob : TrieProbStore Nat ℚ (GramsData.fastEF (fun _ => FastEF.exMphf) codec junkTable) RanksData.cv :=
  { order := 2, ro := 0, unk := -100, voc := ⟨MphExample.mphf, ⟨3, 1, 2, 64, ⟨201, [5, 6, 7, 0]⟩⟩⟩,
    arrs := [⟨2, none, none, some ptrs⟩, ⟨4, some ⟨ptrs, none, []⟩, some cvRanks, none⟩],
    ps := [[-3, -2, -1, 0]], bs := [], pb := 2 }

theorem prob_fits : prob.Fits TrieProbExample.fbQ codec (junk RanksData.cv cvJunk _) := by
  refine ⟨by decide, by decide, by decide, ?_, by decide, rfl, rfl, rfl, ?_, ?_, ⟨mphf_fits, by decide, by decide, by decide, by decide, by decide, by decide⟩, ?_, ?_⟩
  · show _ = _
    decide +kernel
  · intro l hl
    simp [prob] at hl; subst hl
    refine ⟨by simp, fun x hx => ?_⟩
    simp at hx
    rcases hx with rfl | rfl | rfl | rfl <;> (show _ = _) <;> decide +kernel
  · intro l hl; simp [prob] at hl
  · intro a ha
    simp [prob] at ha; subst ha
    exact ⟨by decide, fun _ => rfl, fun h => absurd rfl h, fun _ => rfl, (by simp), ptrs_fits⟩
  · intro i a hi ha
    obtain rfl : i = 1 := by
      have := (List.getElem?_eq_some_iff.1 ha).1
      simp [prob] at this; omega
    simp [prob] at ha; subst ha
    refine ⟨by decide, fun h => absurd h (by decide), fun _ => ⟨fef_fits [] (by decide) (by decide), junk_fits⟩, (by simp), fun _ => ⟨by decide, by decide, by decide⟩, ?_⟩
    · simp [junk, EF.Fits, BitVector.Fits, DArray.Fits, DArray.empty]

example := C36_trie_count (Codec.std _ _ _ .ic) count_fits
example := C36_trie_prob (Codec.std _ _ _ .cv) (bb := 2) (by decide) prob_fits

/-- A library with one hasher of byte strings: their length and first byte. -/
def codecB : Emphf (List Byte) 32 where
  saveHasher _ := []
  loadHasher := Rd.ret fun k => (BitVec.ofNat 32 k.length, (k.headD 0).setWidth 32, 0)
  savePairs := putVec (putU 1)
  loadPairs := getVec (getU 1)

/-- A table with 32-bit hashes. -/
def tableB : SVTable (List Byte) 32 :=
  ⟨⟨2, 1, fun k => (BitVec.ofNat 32 k.length, (k.headD 0).setWidth 32, 0), [3, 1, 2]⟩, ⟨2, 35, 7, [1, 2, 3, 4, 5]⟩⟩

theorem tableB_fits : tableB.Fits codecB :=
  ⟨⟨by decide, by decide, fun _ => rfl, getVec_putVec (by decide) fun v hv => getU1 (by
    have : ∀ v ∈ tableB.h.bv, v < 256 := by decide
    exact this v hv)⟩, by decide, by decide, by decide⟩

/-- Non-vacuity: hash models of order 2 with 32-bit hashes. -/
example : Spec.Reads (MphCount.load codecB) (MphCount.save codecB ⟨2, [⟨1, 3, 7, [4]⟩, ⟨2, 3, 7, [11]⟩], [tableB, tableB]⟩)
    ⟨2, [⟨1, 3, 7, [4]⟩, ⟨2, 3, 7, [11]⟩], [tableB, tableB]⟩ := by
  refine C36_mph_count (by decide) ⟨by decide, rfl, rfl, ?_, ?_⟩
  · intro x hx; simp at hx; rcases hx with rfl | rfl <;> exact ⟨by decide, by decide, by decide⟩
  · intro t ht; simp at ht; subst ht; exact tableB_fits

example : Spec.Reads (MphProb.load TrieProbExample.fbQ codecB)
    (MphProb.save TrieProbExample.fbQ codecB 3 ⟨2, -100, [[-3, -2, -1, 0]], [], 2, [tableB, tableB]⟩)
    ⟨2, -100, [[-3, -2, -1, 0]], [], 2, [tableB, tableB]⟩ := by
  refine C36_mph_prob (by decide) (by decide) ⟨by decide, by decide, ?_, by decide, rfl, rfl, rfl, ?_, ?_, ?_⟩
  · show _ = _
    decide +kernel
  · intro l hl
    simp at hl; subst hl
    refine ⟨by simp, fun x hx => ?_⟩
    simp at hx
    rcases hx with rfl | rfl | rfl | rfl <;> (show _ = _) <;> decide +kernel
  · intro l hl; simp at hl
  · intro t ht; simp at ht; subst ht; exact tableB_fits

/-- A whole round: build from files, save, load from the file with two bytes appended, and look up. -/
example : (Option.bind (TrieCountStore.build exLib MphExample.mphf (GramsData.fastEF (fun _ => FastEF.exMphf) codec junkTable) RanksData.ic 0
      TrieCountExample.files2) fun
    | .ok s => (TrieCountStore.load (GramsData.fastEF (fun _ => FastEF.exMphf) codec junkTable) RanksData.ic codec (s.save codec (junk RanksData.ic icJunk _) ++ [1, 2])).map fun p =>
        ((p.1.toModel []).lookup [0, 1], (p.1.toModel []).lookup [2, 1], p.2)
    | .error () => none) = some (some 7, some 5, [1, 2]) := by decide +kernel

end SaveExample

end Tongrams
