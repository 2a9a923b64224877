import Verif.SortText
import Verif.FromFiles
import Verif.Comparator

/-!
# C51: sort_grams from text files to a text file (src/sort_grams.cpp, sorters/sorter_common.hpp)
-/

set_option linter.unusedSectionVars false

namespace Tongrams

namespace SortTools
variable {V : Type}

/-- `build_vocabulary` (sorter_common.hpp:10-34): `file` is the decompressed vocabulary file, `mem` the bytes of the pool. -/
def buildVocabulary (hv : Mphf (List Byte) 64) (mem extra : Nat) (file : List Byte) : Res (SVTable (List Byte) 64) :=
  Res.bind (readGrams file) fun recs =>
  Res.bind ((Pool.new mem extra).loadFrom recs) fun pool =>
  Res.lift (buildVocab hv (pool.records.map (·.1)))

/-- The look-up of a word by the comparator (sorter_common.hpp:52 and 57). -/
def idOf (t : SVTable (List Byte) 64) (w : List Byte) : Option Nat := (t.lookup w).map BitVec.toNat

/-- The comparator on two records: the n-grams are two ranges of a memory (the pool, or the two lines being merged). -/
def cmpOf (ord : Mem → (List Byte → Option Nat) → ByteRange → ByteRange → Option Bool) (t : SVTable (List Byte) 64) (a b : List Byte × V) : Option Bool :=
  ord (a.1 ++ b.1) (idOf t) (0, a.1.length) (a.1.length, a.1.length + b.1.length)

/-- `sort_grams` (src/sort_grams.cpp:29-102), run with the decompressed files `vocabFile` and `input` and an output file that contained `old`: what the
output file contains in the end.  `vocMem` and `mem` are the sizes of the two pools (lines 48-60, 64).  Simplification: the input is read before it is
sorted. -/
def sortGrams (S : StdSortFn (List Byte × W)) (hv : Mphf (List Byte) 64) (vocMem mem extra : Nat) (old vocabFile input : List Byte) : Res (List Byte) :=
  Res.bind (buildVocabulary hv vocMem extra vocabFile) fun t =>
  Res.bind (readGrams input) fun recs =>
  Res.bind (Res.lift (SortGrams.driver recs.length (recs.length + 1) 0 (Pool.new mem extra) recs)) fun bs =>
  SortText.run S (cmpOf prefixOrder t) (fun r => formatCountLine r.1 r.2) parseCountLine true recs.length old bs

end SortTools

/-- Specification: the identifier of a word: its position in the vocabulary. -/
def Spec.idIn {K : Type} [DecidableEq K] (U : List K) (w : K) : Nat := U.idxOf w

/-- Specification: a list of words to be used as vocabulary. -/
structure Spec.Words (U : List (List Byte)) : Prop where
  nonempty : U ≠ []
  nodup : U.Nodup
  words : ∀ w ∈ U, Spec.FileWord w
  size : U.length < 2 ^ 57

/-- Specification: `ws` is an n-gram of `k` words of `U`. -/
def Spec.GramOf (U : List (List Byte)) (k : Nat) (ws : List (List Byte)) : Prop := ws.length = k ∧ ∀ w ∈ ws, w ∈ U

/-- Specification: the lines of a count file, as the tools hold them. -/
def Spec.lineOf (r : List (List Byte) × Nat) : List Byte × W := (joinSp r.1, BitVec.ofNat 64 r.2)

/-- Specification: cut greedily into batches of at most `mem` bytes, the lines do not end with a batch of a single line. -/
def Spec.LastBatchLarge {V : Type} (mem : Nat) (l : List (List Byte × V)) : Prop := ∃ b, (Spec.greedy mem [] l).getLast? = some b ∧ 2 ≤ b.length

/-! ## Proofs -/

namespace SortText
variable {R : Type}

/-- The sorter on batches of records that are comparable. -/
theorem run_sorted {S : StdSortFn R} (hS : Spec.StdSortLib S) {cmp : R → R → Option Bool} {P Q : R → Prop} (hQ : ∀ a, Q a → P a) (lt : R → R → Bool)
    (hw : Spec.StrictWeak lt P) (hcmp : ∀ a b, P a → P b → cmp a b = some (lt a b)) {fmt : R → List Byte} {prs : List Byte → Option R}
    (p : List Byte → R) (hnl : ∀ a, Q a → nl ∉ fmt a) (hprs : ∀ a, Q a → prs (fmt a) = some (p (fmt a)) ∧ P (p (fmt a))) :
    ∃ sort : List R → List R, Spec.StdSort sort lt P ∧
      ∀ (counts : Bool) (n : Nat) (old : List Byte) (bs : List (List R)), (∀ b ∈ bs, ∀ x ∈ b, Q x) → bs.flatten.length < 2 ^ 64 →
        run S cmp fmt prs counts n old bs = Res.map (fun fs => old ++ fs.flatMap text) (Sorter.run sort lt fmt p counts n bs) := by
  have key : ∀ l : List R, (∀ a ∈ l, P a) → ∃ s, S cmp l = some s ∧ s.Perm l ∧ s.Pairwise fun a b => lt b a = false := by
    intro l hl
    obtain ⟨s, e1, e2, e3⟩ := hS cmp l ⟨fun a ha b hb => ⟨_, hcmp a b (hl a ha) (hl b hb)⟩,
      fun a ha => by rw [hcmp a a (hl a ha) (hl a ha), hw.irrefl a (hl a ha)],
      fun a ha b hb c hc h1 h2 => by
        rw [hcmp a b (hl a ha) (hl b hb), Option.some.injEq] at h1
        rw [hcmp b c (hl b hb) (hl c hc), Option.some.injEq] at h2
        rw [hcmp a c (hl a ha) (hl c hc), hw.trans a b c (hl a ha) (hl b hb) (hl c hc) h1 h2],
      fun a ha b hb c hc h1 h2 => by
        rw [hcmp a b (hl a ha) (hl b hb), Option.some.injEq] at h1
        rw [hcmp b c (hl b hb) (hl c hc), Option.some.injEq] at h2
        rw [hcmp a c (hl a ha) (hl c hc), hw.negtrans a b c (hl a ha) (hl b hb) (hl c hc) h1 h2]⟩
    refine ⟨s, e1, e2, e3.imp_of_mem ?_⟩
    intro a b ha hb h
    rw [hcmp b a (hl b (e2.mem_iff.1 hb)) (hl a (e2.mem_iff.1 ha)), Option.some.injEq] at h
    exact h
  refine ⟨fun l => (S cmp l).getD l, ?_, ?_⟩
  · intro l hl
    obtain ⟨s, e1, e2, e3⟩ := key l hl
    show ((S cmp l).getD l).Perm l ∧ ((S cmp l).getD l).Pairwise _
    rw [e1]; exact ⟨e2, e3⟩
  · intro counts n old bs hbs hlen
    refine run_eq (G := fun l => ∃ a, Q a ∧ l = fmt a) ⟨?_, ?_, ?_⟩ counts n old bs ?_ ?_ hlen
    · rintro l ⟨a, ha, rfl⟩; exact hnl a ha
    · rintro l ⟨a, ha, rfl⟩; exact (hprs a ha).1
    · rintro _ _ ⟨a, ha, rfl⟩ ⟨b, hb, rfl⟩; exact hcmp _ _ (hprs a ha).2 (hprs b hb).2
    · intro b hb _
      obtain ⟨s, e1, e2, -⟩ := key b fun x hx => hQ x (hbs b hb x hx)
      rw [e1]; exact ⟨rfl, e2⟩
    · intro b hb x hx; exact ⟨x, hbs b hb x hx, rfl⟩

end SortText

namespace SortTools
variable {V : Type}

theorem fileWord_isWord {w : List Byte} (h : Spec.FileWord w) : Spec.IsWord w ∧ w ≠ [] := ⟨fun _ hb => ⟨fun e => h.2.1 (e ▸ hb), fun e => h.2.2.2 (e ▸ hb)⟩, h.1⟩

theorem idIn_lt {K : Type} [DecidableEq K] {U : List K} {w : K} (h : w ∈ U) : Spec.idIn U w < U.length := List.idxOf_lt_length_of_mem h

theorem idIn_inj {K : Type} [DecidableEq K] {U : List K} {v w : K} (hv : v ∈ U) (hw : w ∈ U) (e : Spec.idIn U v = Spec.idIn U w) : v = w := by
  have h1 := List.getElem_idxOf (List.idxOf_lt_length_of_mem hv)
  have h2 := List.getElem_idxOf (List.idxOf_lt_length_of_mem hw)
  unfold Spec.idIn at e
  rw [← h1, ← h2]
  simp only [e]

theorem buildVocabulary_ok {U : List (List Byte)} (hU : Spec.Words U) {hv : Mphf (List Byte) 64} (hb : hv.BuiltFrom U)
    {voc : List (List (List Byte) × Nat)} (hvoc : voc.map (·.1) = U.map fun w => [w]) {mem extra : Nat} (hmem : (U.map List.length).sum ≤ mem) :
    ∃ t, buildVocabulary hv mem extra (Spec.gramsText voc) = some (.ok t) ∧ Spec.Ids (idOf t) U (Spec.idIn U) := by
  have hne : voc ≠ [] := by rintro rfl; simp at hvoc; exact hU.nonempty hvoc
  have hlen : voc.length = U.length := by simpa using congrArg List.length hvoc
  have hw : ∀ r ∈ voc, ∀ w ∈ r.1, Spec.FileWord w := by
    intro r hr w hw
    have : r.1 ∈ voc.map (·.1) := List.mem_map_of_mem hr
    rw [hvoc] at this
    obtain ⟨u, hu, e⟩ := List.mem_map.1 this
    rw [← e] at hw
    simp at hw; subst hw
    exact hU.words w hu
  unfold buildVocabulary
  rw [readGrams_text hne (by have := hU.size; omega) hw, Res.bind_ok]
  have hgr : (voc.map fun r => (joinSp r.1, BitVec.ofNat 64 r.2)).map (·.1) = U := by
    have := congrArg (List.map joinSp) hvoc
    simpa [List.map_map, Function.comp_def, joinSp] using this
  generalize hl : (voc.map fun r => (joinSp r.1, BitVec.ofNat 64 r.2)) = ls at *
  obtain ⟨p, e1, e2⟩ := (C40_load_from mem extra ls).1 (by
    have : ls.map (·.1.length) = U.map List.length := by rw [← hgr, List.map_map]; rfl
    rw [this]; exact hmem)
  rw [e1, Res.bind_ok, e2]
  have hf : ls.filter (fun l => decide (l.1 ≠ [])) = ls := by
    rw [List.filter_eq_self]
    intro l hl
    have : l.1 ∈ U := by rw [← hgr]; exact List.mem_map_of_mem hl
    simpa using (hU.words _ this).1
  rw [hf, hgr]
  obtain ⟨t, e3, e4, -⟩ := TrieCount.vocab_ok hb hU.nonempty hU.nodup hU.size
  refine ⟨t, by rw [e3]; rfl, fun w hw => ⟨e4 w hw, ?_⟩, ?_⟩
  · have h1 := idIn_lt hw
    have h2 := hU.size
    have : (2 : Nat) ^ 57 ≤ NF := by decide
    omega
  · exact fun v hv w hw e => idIn_inj hv hw e

/-- Records of n-grams of `k` words. -/
def IsRec (U : List (List Byte)) (k : Nat) (x : List Byte × V) : Prop := ∃ ws, x.1 = joinSp ws ∧ Spec.GramOf U k ws

/-- The words of a record. -/
noncomputable def wordsOf (U : List (List Byte)) (k : Nat) (x : List Byte × V) : List (List Byte) :=
  open Classical in if h : IsRec U k x then h.choose else []

theorem joinSp_inj {ws vs : List (List Byte)} (h1 : ∀ w ∈ ws, w ≠ [] ∧ sp ∉ w) (h2 : ∀ w ∈ vs, w ≠ [] ∧ sp ∉ w) (n1 : ws ≠ []) (n2 : vs ≠ [])
    (h : joinSp ws = joinSp vs) : ws = vs := by
  have e1 := queryWords_ok n1 h1
  rw [h, queryWords_ok n2 h2] at e1
  exact (Option.some.inj e1).symm

theorem gramOf_words {U : List (List Byte)} (hU : Spec.Words U) {k : Nat} {ws : List (List Byte)} (h : Spec.GramOf U k ws) :
    ∀ w ∈ ws, w ≠ [] ∧ sp ∉ w := fun w hw => ⟨(hU.words w (h.2 w hw)).1, (hU.words w (h.2 w hw)).2.1⟩

theorem wordsOf_eq {U : List (List Byte)} (hU : Spec.Words U) {k : Nat} (hk : 1 ≤ k) {ws : List (List Byte)} (h : Spec.GramOf U k ws) (v : V) :
    wordsOf U k (joinSp ws, v) = ws := by
  have hr : IsRec U k (joinSp ws, v) := ⟨ws, rfl, h⟩
  have hne : ∀ {l : List (List Byte)}, Spec.GramOf U k l → l ≠ [] := by rintro l hl rfl; have := hl.1; simp at this; omega
  unfold wordsOf
  rw [dif_pos hr]
  have := hr.choose_spec
  exact (joinSp_inj (gramOf_words hU h) (gramOf_words hU this.2) (hne h) (hne this.2) this.1).symm

theorem holds_join {U : List (List Byte)} (hU : Spec.Words U) {k : Nat} (hk : 1 ≤ k) {ws : List (List Byte)} (h : Spec.GramOf U k ws) (pre post : List Byte) :
    Spec.Holds (pre ++ joinSp ws ++ post) (pre.length, pre.length + (joinSp ws).length) ws where
  at_ := ⟨post, by simp⟩
  end_ := rfl
  words := fun w hw => fileWord_isWord (hU.words w (h.2 w hw))
  nonempty := by rintro rfl; have := h.1; simp at this; omega

theorem prefix_cmp {U : List (List Byte)} (hU : Spec.Words U) {k : Nat} (hk : 1 ≤ k) {t : SVTable (List Byte) 64} (ht : Spec.Ids (idOf t) U (Spec.idIn U))
    {a b : List (List Byte)} (ha : Spec.GramOf U k a) (hb : Spec.GramOf U k b) (v w : V) :
    cmpOf prefixOrder t (joinSp a, v) (joinSp b, w) = some (decide (a.map (Spec.idIn U) < b.map (Spec.idIn U))) := by
  have h1 := holds_join hU hk ha [] (joinSp b)
  have h2 := holds_join hU hk hb (joinSp a) []
  rw [List.append_nil] at h2
  simp only [List.length_nil, Nat.zero_add, List.nil_append] at h1
  exact C33_prefix_order ht h1 h2 (by rw [ha.1, hb.1]) ha.2 hb.2

theorem suffix_cmp {U : List (List Byte)} (hU : Spec.Words U) {k : Nat} (hk : 1 ≤ k) {t : SVTable (List Byte) 64} (ht : Spec.Ids (idOf t) U (Spec.idIn U))
    {a b : List (List Byte)} (ha : Spec.GramOf U k a) (hb : Spec.GramOf U k b) (v w : V) :
    cmpOf suffixOrder t (joinSp a, v) (joinSp b, w) = some (decide ((a.map (Spec.idIn U)).reverse < (b.map (Spec.idIn U)).reverse)) := by
  have h1 := holds_join hU hk ha [] (joinSp b)
  have h2 := holds_join hU hk hb (joinSp a) []
  rw [List.append_nil] at h2
  simp only [List.length_nil, Nat.zero_add, List.nil_append] at h1
  exact C33_suffix_order ht h1 h2 (by rw [ha.1, hb.1]) ha.2 hb.2

/-- A comparator that orders the records by a list of numbers. -/
theorem strictWeak_key {R : Type} (key : R → List Nat) (P : R → Prop) : Spec.StrictWeak (fun a b => decide (key a < key b)) P where
  irrefl := by intro a _; simp
  trans := by intro a b c _ _ _ h1 h2; simp only [decide_eq_true_eq] at *; exact lt_trans h1 h2
  negtrans := by intro a b c _ _ _ h1 h2; simp only [decide_eq_false_iff_not, not_lt] at *; exact le_trans h2 h1

theorem tab_not_mem {U : List (List Byte)} (hU : Spec.Words U) {k : Nat} {ws : List (List Byte)} (h : Spec.GramOf U k ws) : Spec.CleanGram (joinSp ws) :=
  cleanGram fun w hw => hU.words w (h.2 w hw)

end SortTools

namespace SortTools

theorem joinSp_ne_nil {U : List (List Byte)} (hU : Spec.Words U) {k : Nat} (hk : 1 ≤ k) {ws : List (List Byte)} (h : Spec.GramOf U k ws) : joinSp ws ≠ [] := by
  intro e
  rcases ws with _ | ⟨w, ws⟩
  · have := h.1; simp at this; omega
  · have hwne := (gramOf_words hU h w (by simp)).1
    cases ws <;> simp [joinSp] at e
    exact hwne e

/-- The order of the records by the identifiers of their words, first word first. -/
noncomputable def ltPrefix (U : List (List Byte)) (k : Nat) (a b : List Byte × W) : Bool :=
  decide ((wordsOf U k a).map (Spec.idIn U) < (wordsOf U k b).map (Spec.idIn U))

/-- The record on a line. -/
def recOf (l : List Byte) : List Byte × W := (parseCountLine l).getD ([], 0)

theorem recOf_fmt {U : List (List Byte)} (hU : Spec.Words U) {k : Nat} {x : List Byte × W} (hx : IsRec U k x) :
    parseCountLine (formatCountLine x.1 x.2) = some x ∧ recOf (formatCountLine x.1 x.2) = x := by
  obtain ⟨ws, e, h⟩ := hx
  have := C41_format_then_parse x.1 x.2 (by rw [e]; exact (tab_not_mem hU h).1)
  exact ⟨this, by unfold recOf; rw [this]; rfl⟩

theorem cmp_prefix {U : List (List Byte)} (hU : Spec.Words U) {k : Nat} (hk : 1 ≤ k) {t : SVTable (List Byte) 64} (ht : Spec.Ids (idOf t) U (Spec.idIn U))
    {a b : List Byte × W} (ha : IsRec U k a) (hb : IsRec U k b) : cmpOf prefixOrder t a b = some (ltPrefix U k a b) := by
  obtain ⟨ws, e, h⟩ := ha
  obtain ⟨vs, e', h'⟩ := hb
  obtain ⟨a, v⟩ := a
  obtain ⟨b, w⟩ := b
  cases e; cases e'
  rw [prefix_cmp hU hk ht h h']
  unfold ltPrefix
  rw [wordsOf_eq hU hk h, wordsOf_eq hU hk h']

theorem sorted_text {U : List (List Byte)} (hU : Spec.Words U) {k : Nat} (hk : 1 ≤ k) {l : List (List (List Byte) × Nat)}
    (hg : ∀ r ∈ l, Spec.GramOf U k r.1 ∧ r.2 < 2 ^ 64) {f : SFile (List Byte)}
    (h : Spec.SortedFile (ltPrefix U k) (fun r => formatCountLine r.1 r.2) true (l.map Spec.lineOf) f) :
    ∃ s : List (List (List Byte) × Nat), s.Perm l ∧ (s.Pairwise fun p q => p.1.map (Spec.idIn U) ≤ q.1.map (Spec.idIn U)) ∧
      SortText.text f = Spec.gramsText s := by
  obtain ⟨h1, s, h2, h3, h4⟩ := h
  have hs : ∀ x ∈ s, ∃ r ∈ l, Spec.lineOf r = x := fun x hx => List.mem_map.1 (h3.mem_iff.1 hx)
  let back : List Byte × W → List (List Byte) × Nat := fun x => (wordsOf U k x, x.2.toNat)
  have hback : ∀ r ∈ l, back (Spec.lineOf r) = r := by
    intro r hr
    show (wordsOf U k (joinSp r.1, _), (BitVec.ofNat 64 r.2).toNat) = r
    rw [wordsOf_eq hU hk (hg r hr).1, BitVec.toNat_ofNat, Nat.mod_eq_of_lt (hg r hr).2]
  have hperm : (s.map back).Perm l := by
    have := h3.map back
    rw [List.map_map] at this
    have e : l.map (back ∘ Spec.lineOf) = l := by
      conv => rhs; rw [← List.map_id l]
      exact List.map_congr_left hback
    rwa [e] at this
  refine ⟨s.map back, hperm, ?_, ?_⟩
  · rw [List.pairwise_map]
    refine h4.imp ?_
    intro a b hab
    unfold ltPrefix at hab
    simpa using hab
  · have hline : ∀ x ∈ s, Spec.lineOf (back x) = x := by
      intro x hx
      obtain ⟨r, hr, rfl⟩ := hs x hx
      rw [hback r hr]
    have hsl : (s.map back).map Spec.lineOf = s := by
      rw [List.map_map]
      conv => rhs; rw [← List.map_id s]
      exact List.map_congr_left hline
    have hlen : (l.map Spec.lineOf).length = s.length := h3.length_eq.symm
    unfold Spec.gramsText
    rw [show (s.map back).map (fun r => (joinSp r.1, BitVec.ofNat 64 r.2)) = s from hsl]
    unfold SortText.text Spec.countFile
    rw [h1, h2]
    simp only [if_true, hlen, SortText.unl, List.flatMap_map, formatCountLine]
    simp

/-- Sorting a text, after the vocabulary was built. -/
theorem sortGrams_batches {S : StdSortFn (List Byte × W)} {hv : Mphf (List Byte) 64} {U : List (List Byte)} (hU : Spec.Words U)
    (hb : hv.BuiltFrom U) {voc : List (List (List Byte) × Nat)} (hvoc : voc.map (·.1) = U.map fun w => [w]) {vocMem mem extra : Nat}
    (hmem : (U.map List.length).sum ≤ vocMem) {k : Nat} (hk : 1 ≤ k) {f : List (List (List Byte) × Nat)} (hne : f ≠ []) (hlen : f.length < 2 ^ 64)
    (hg : ∀ r ∈ f, Spec.GramOf U k r.1 ∧ r.2 < 2 ^ 64 ∧ (joinSp r.1).length ≤ mem) (hS : Spec.StdSortLib S) :
    ∃ sort, Spec.StdSort sort (ltPrefix U k) (IsRec U k) ∧ ∀ old,
      sortGrams S hv vocMem mem extra old (Spec.gramsText voc) (Spec.gramsText f) = Res.map (fun fs => old ++ fs.flatMap SortText.text)
        (SortGrams.sortGrams sort (ltPrefix U k) (fun r => formatCountLine r.1 r.2) recOf mem extra (f.map Spec.lineOf)) := by
  obtain ⟨t, e1, ht⟩ := buildVocabulary_ok hU hb hvoc (extra := extra) hmem
  obtain ⟨sort, hs, hrun⟩ := SortText.run_sorted hS (cmp := cmpOf prefixOrder t) (P := IsRec U k) (Q := IsRec U k) (fun _ h => h) (ltPrefix U k) (strictWeak_key _ _)
    (fun a b ha hb => cmp_prefix hU hk ht ha hb) (fmt := fun r => formatCountLine r.1 r.2) (prs := parseCountLine) recOf
    (by
      rintro a ⟨ws, e, h⟩
      exact nl_not_mem_format (by rw [e]; exact tab_not_mem hU h))
    (fun a ha => by
      obtain ⟨p1, p2⟩ := recOf_fmt hU ha
      simp only [p2]
      exact ⟨p1, ha⟩)
  refine ⟨sort, hs, fun old => ?_⟩
  unfold sortGrams SortGrams.sortGrams
  rw [e1, Res.bind_ok, readGrams_text hne hlen (fun r hr w hw => hU.words w ((hg r hr).1.2 w hw)), Res.bind_ok]
  show Res.bind (Res.lift (SortGrams.driver (f.map Spec.lineOf).length ((f.map Spec.lineOf).length + 1) 0 (Pool.new mem extra) (f.map Spec.lineOf))) _ = _
  have hd := SortGrams.driver_spec (f.map Spec.lineOf).length (by have := List.length_pos_iff.2 hne; rw [List.length_map]; omega) (by simpa using hlen) ((f.map Spec.lineOf).length + 1) 0
    (Pool.new mem extra) (f.map Spec.lineOf) (Pool.new_holds _ _)
    (by
      intro x hx
      obtain ⟨r, hr, rfl⟩ := List.mem_map.1 hx
      refine ⟨?_, (hg r hr).2.2⟩
      exact joinSp_ne_nil hU hk (hg r hr).1)
    (by omega) (by omega)
  rw [hd]
  simp only [Res.lift, Option.map_some, Res.bind_ok]
  have hfl := SortGrams.greedy_flatten mem [] (f.map Spec.lineOf)
  rw [List.nil_append] at hfl
  have hsub : ∀ b ∈ SortGrams.given (Spec.greedy mem [] (f.map Spec.lineOf)), b ∈ Spec.greedy mem [] (f.map Spec.lineOf) := by
    intro b hb
    unfold SortGrams.given at hb
    split at hb
    · exact List.dropLast_subset _ hb
    · exact hb
  refine hrun true _ old _ ?_ ?_
  · intro b hb x hx
    have : x ∈ f.map Spec.lineOf := by rw [← hfl]; exact List.mem_flatten.2 ⟨b, hsub b hb, hx⟩
    obtain ⟨r, hr, rfl⟩ := List.mem_map.1 this
    exact ⟨r.1, rfl, (hg r hr).1⟩
  · refine Nat.lt_of_le_of_lt (m := (f.map Spec.lineOf).length) ?_ (by simpa using hlen)
    have : (SortGrams.given (Spec.greedy mem [] (f.map Spec.lineOf))).flatten.length ≤ (Spec.greedy mem [] (f.map Spec.lineOf)).flatten.length := by
      unfold SortGrams.given
      split
      · exact ((List.dropLast_sublist _).flatten).length_le
      · exact Nat.le_refl _
    rw [hfl] at this
    exact this

end SortTools

/-- **C51** (sort_grams, from text to text).  Given the text of a vocabulary and the text of n-grams of `k` of its words with their counts, in any order,
`sort_grams` appends to the output file the text of exactly these n-grams and counts in prefix order: the number of n-grams, then the lines ordered by
the positions of the words in the vocabulary, first word first.  The pool may hold any part of the n-grams, as long as each fits and the last batch has
more than one. -/
theorem C51_sort_grams_text {S : StdSortFn (List Byte × W)} (hS : Spec.StdSortLib S) {hv : Mphf (List Byte) 64} {U : List (List Byte)} (hU : Spec.Words U)
    (hb : hv.BuiltFrom U) {voc : List (List (List Byte) × Nat)} (hvoc : voc.map (·.1) = U.map fun w => [w]) {vocMem mem extra : Nat}
    (hmem : (U.map List.length).sum ≤ vocMem) {k : Nat} (hk : 1 ≤ k) {f : List (List (List Byte) × Nat)} (hlen : f.length < 2 ^ 64)
    (hg : ∀ r ∈ f, Spec.GramOf U k r.1 ∧ r.2 < 2 ^ 64 ∧ (joinSp r.1).length ≤ mem) (hlast : Spec.LastBatchLarge mem (f.map Spec.lineOf)) :
    ∃ s : List (List (List Byte) × Nat), s.Perm f ∧ (s.Pairwise fun p q => p.1.map (Spec.idIn U) ≤ q.1.map (Spec.idIn U)) ∧
      ∀ old, SortTools.sortGrams S hv vocMem mem extra old (Spec.gramsText voc) (Spec.gramsText f) = some (.ok (old ++ Spec.gramsText s)) := by
  have hne : f ≠ [] := by rintro rfl; obtain ⟨b, hb, -⟩ := hlast; simp [Spec.greedy] at hb
  obtain ⟨sort, hs, hrun⟩ := SortTools.sortGrams_batches (extra := extra) hU hb hvoc hmem hk hne hlen hg hS
  obtain ⟨sf, e1, e2⟩ := C34_sort_grams (lt := SortTools.ltPrefix U k) (fmt := fun r => formatCountLine r.1 r.2) (prs := SortTools.recOf) (P := SortTools.IsRec U k) (SortTools.strictWeak_key _ _) hs
    (fun a b ha hb => by rw [(SortTools.recOf_fmt hU ha).2, (SortTools.recOf_fmt hU hb).2]) mem extra (f.map Spec.lineOf) (by simpa using hlen)
    (by
      intro x hx
      obtain ⟨r, hr, rfl⟩ := List.mem_map.1 hx
      refine ⟨⟨r.1, rfl, (hg r hr).1⟩, ?_, (hg r hr).2.2⟩
      exact SortTools.joinSp_ne_nil hU hk (hg r hr).1) hlast
  obtain ⟨s, s1, s2, s3⟩ := SortTools.sorted_text hU hk (fun r hr => ⟨(hg r hr).1, (hg r hr).2.1⟩) e2
  refine ⟨s, s1, s2, fun old => ?_⟩
  rw [hrun old, e1, ← s3]
  simp [Res.map, Res.bind]


/-- C51: distinct n-grams end up strictly ordered. -/
theorem C51_distinct {U : List (List Byte)} {s f : List (List (List Byte) × Nat)} (hp : s.Perm f) (hnd : (f.map (·.1)).Nodup)
    (hg : ∀ r ∈ f, ∀ w ∈ r.1, w ∈ U) (h : s.Pairwise fun p q => p.1.map (Spec.idIn U) ≤ q.1.map (Spec.idIn U)) :
    (s.map (·.1)).Pairwise fun p q => p.map (Spec.idIn U) < q.map (Spec.idIn U) := by
  have hnd' : (s.map (·.1)).Nodup := (hp.map _).nodup_iff.2 hnd
  have hinj : ∀ {xs ys : List (List Byte)}, (∀ w ∈ xs, w ∈ U) → (∀ w ∈ ys, w ∈ U) → xs.map (Spec.idIn U) = ys.map (Spec.idIn U) → xs = ys := by
    intro xs
    induction xs with
    | nil => intro ys _ _ h; simp at h; exact h.symm
    | cons x xs ih =>
      intro ys h1 h2 h
      cases ys with
      | nil => simp at h
      | cons y ys =>
        simp only [List.map_cons, List.cons.injEq] at h
        rw [SortTools.idIn_inj (h1 x (by simp)) (h2 y (by simp)) h.1, ih (fun w hw => h1 w (by simp [hw])) (fun w hw => h2 w (by simp [hw])) h.2]
  rw [List.pairwise_map]
  unfold List.Nodup at hnd'
  rw [List.pairwise_map] at hnd'
  refine (hnd'.and h).imp_of_mem ?_
  intro a b ha hb hab
  refine lt_of_le_of_ne hab.2 fun e => hab.1 ?_
  exact hinj (hg a (hp.mem_iff.1 ha)) (hg b (hp.mem_iff.1 hb)) e

/-- C51, defect, for every input: if the last batch has a single n-gram, `sort_grams` does not write it, and if there are at most two batches (for
instance a single n-gram, whatever the memory) it does not write anything. -/
theorem C51_last_line_lost_defect {S : StdSortFn (List Byte × W)} (hS : Spec.StdSortLib S) {hv : Mphf (List Byte) 64} {U : List (List Byte)} (hU : Spec.Words U)
    (hb : hv.BuiltFrom U) {voc : List (List (List Byte) × Nat)} (hvoc : voc.map (·.1) = U.map fun w => [w]) {vocMem mem extra : Nat}
    (hmem : (U.map List.length).sum ≤ vocMem) {k : Nat} (hk : 1 ≤ k) {f : List (List (List Byte) × Nat)} (hlen : f.length < 2 ^ 64)
    (hg : ∀ r ∈ f, Spec.GramOf U k r.1 ∧ r.2 < 2 ^ 64 ∧ (joinSp r.1).length ≤ mem) {x : List Byte × W}
    (hlast : (Spec.greedy mem [] (f.map Spec.lineOf)).getLast? = some [x]) :
    ((Spec.greedy mem [] (f.map Spec.lineOf)).length ≤ 2 → ∀ old,
      SortTools.sortGrams S hv vocMem mem extra old (Spec.gramsText voc) (Spec.gramsText f) = some (.ok old)) ∧
    (2 < (Spec.greedy mem [] (f.map Spec.lineOf)).length → ∃ s : List (List (List Byte) × Nat), s.Perm f.dropLast ∧ ∀ old,
      SortTools.sortGrams S hv vocMem mem extra old (Spec.gramsText voc) (Spec.gramsText f) = some (.ok (old ++ Spec.gramsText s))) := by
  have hne : f ≠ [] := by rintro rfl; simp [Spec.greedy] at hlast
  obtain ⟨sort, hs, hrun⟩ := SortTools.sortGrams_batches (extra := extra) hU hb hvoc hmem hk hne hlen hg hS
  obtain ⟨e1, e2⟩ := C34_last_record_lost_defect (lt := SortTools.ltPrefix U k) (fmt := fun r => formatCountLine r.1 r.2) (prs := SortTools.recOf)
    (P := SortTools.IsRec U k) (SortTools.strictWeak_key _ _) hs
    (fun a b ha hb => by rw [(SortTools.recOf_fmt hU ha).2, (SortTools.recOf_fmt hU hb).2]) mem extra (f.map Spec.lineOf) (by simpa using hlen)
    (by
      intro x hx
      obtain ⟨r, hr, rfl⟩ := List.mem_map.1 hx
      refine ⟨⟨r.1, rfl, (hg r hr).1⟩, ?_, (hg r hr).2.2⟩
      exact SortTools.joinSp_ne_nil hU hk (hg r hr).1) hlast
  constructor
  · intro h old
    rw [hrun old, e1 h]; simp [Res.map, Res.bind]
  · intro h
    obtain ⟨sf, g1, g2⟩ := e2 h
    rw [← List.map_dropLast] at g2
    obtain ⟨s, s1, s2, s3⟩ := SortTools.sorted_text hU hk (l := f.dropLast)
      (fun r hr => ⟨(hg r (List.dropLast_subset _ hr)).1, (hg r (List.dropLast_subset _ hr)).2.1⟩) g2
    refine ⟨s, s1, fun old => ?_⟩
    rw [hrun old, g1, ← s3]
    simp [Res.map, Res.bind]

namespace SortTools

theorem gramsLoop_rest (rest : List Byte) : ∀ (records : List (List Byte × W)) (line : List Byte), (∀ r ∈ records, Spec.CleanGram r.1) →
    gramsLoop records.length (getline ⟨recordLines records ++ rest, false⟩ line) = some records
  | [], _, _ => rfl
  | r :: rs, line, h => by
    rw [recordLines_cons, List.append_assoc, List.cons_append, getline_line (nl_not_mem_format (h r (by simp)))]
    rw [List.length_cons, gramsLoop, C41_format_then_parse _ _ (h r (by simp)).1, Option.bind_some,
      gramsLoop_rest rest rs _ (fun x hx => h x (by simp [hx])), Option.map_some]

end SortTools

/-- C51, defect, for every pair of runs: `sort_grams` does not empty its output file, it appends to it.  If the file held the result of an earlier run, a
reader of n-gram files then gets the n-grams of that run, and no error. -/
theorem C51_stale_output_defect {s : List (List (List Byte) × Nat)} (hne : s ≠ []) (hlen : s.length < 2 ^ 64) (hw : ∀ r ∈ s, ∀ w ∈ r.1, Spec.FileWord w)
    (new : List Byte) : readGrams (Spec.gramsText s ++ new) = readGrams (Spec.gramsText s) := by
  rw [readGrams_text hne hlen hw]
  have hc : ∀ r ∈ s.map Spec.lineOf, Spec.CleanGram r.1 := by
    intro x hx
    obtain ⟨r, hr, rfl⟩ := List.mem_map.1 hx
    exact cleanGram (hw r hr)
  show readGrams (Spec.countFile (s.map Spec.lineOf) ++ new) = some (.ok (s.map Spec.lineOf))
  generalize hl : s.map Spec.lineOf = ls at *
  have hln : ls.length = s.length := by rw [← hl, List.length_map]
  have hpos := List.length_pos_iff.2 hne
  have e : Spec.countFile ls ++ new = decimal ls.length ++ nl :: (recordLines ls ++ new) := by simp [Spec.countFile, recordLines]
  unfold readGrams gramsOpen
  rw [e, getline_line (SortText.decimal_no_nl _)]
  have hn : BitVec.ofNat 64 ls.length ≠ 0#64 := by
    intro e
    have := congrArg BitVec.toNat e
    rw [BitVec.toNat_ofNat, Nat.mod_eq_of_lt (by omega)] at this
    simp at this
    rw [this] at hln; simp at hln; omega
  simp only [decimal_ne_nil, if_false, stoull_decimal _ (show ls.length < 2 ^ 64 by omega), bind, Except.bind, hn, pure, Except.pure]
  rw [BitVec.toNat_ofNat, Nat.mod_eq_of_lt (by omega), SortTools.gramsLoop_rest new ls _ hc]
  rfl

/-- Specification: the n-gram files of a count model, in any order: `Spec.TrieData` without its order, but without repetitions. -/
structure Spec.UnsortedCounts (U : List (List Byte)) (files : List (List (List (List Byte) × Nat))) (ro : Nat) : Prop where
  vocabulary : Spec.Words U
  unigrams : (files[0]?).map (·.map (·.1)) = some (U.map fun w => [w])
  nonempty : ∀ f ∈ files, f ≠ []
  grams : ∀ (k : Nat) f, files[k]? = some f → ∀ r ∈ f, Spec.GramOf U (k + 1) r.1 ∧ r.2 < 2 ^ 64 - 1
  distinct : ∀ f ∈ files, (f.map (·.1)).Nodup
  prefix_closed : ∀ (k : Nat) f g, files[k]? = some f → files[k + 1]? = some g → ∀ r ∈ g, ∃ c, (r.1.dropLast, c) ∈ f
  windows : ro ≠ 0 → ∀ (k : Nat) f g, ro < k → files[k]? = some g → files[ro]? = some f → ∀ r ∈ g, ∃ c, (r.1.drop (k - ro), c) ∈ f
  order_min : 2 ≤ files.length
  order_max : files.length ≤ 8
  remapping : ro ≤ 2
  size : ∀ f ∈ files, f.length * U.length < 2 ^ 56

theorem choose_list {A B : Type} (l : List A) (Q : Nat → A → B → Prop) (h : ∀ i a, l[i]? = some a → ∃ b, Q i a b) :
    ∃ bs : List B, bs.length = l.length ∧ ∀ (i : Nat) (a : A) (b : B), l[i]? = some a → bs[i]? = some b → Q i a b := by
  induction l generalizing Q with
  | nil => exact ⟨[], rfl, by simp⟩
  | cons a l ih =>
    obtain ⟨b, hb⟩ := h 0 a rfl
    obtain ⟨bs, e1, e2⟩ := ih (fun i => Q (i + 1)) (fun i a ha => h (i + 1) a (by simpa using ha))
    refine ⟨b :: bs, by simp [e1], ?_⟩
    intro i a' b' h1 h2
    cases i with
    | zero => simp at h1 h2; subst h1 h2; exact hb
    | succ i => exact e2 i a' b' (by simpa using h1) (by simpa using h2)

theorem words_sorted {K : Type} [DecidableEq K] {U : List K} (h : U.Nodup) : (U.map fun w => [w]).Pairwise fun p q => p.map U.idxOf < q.map U.idxOf := by
  rw [List.pairwise_map, List.pairwise_iff_getElem]
  intro i j hi hj hij
  simp only [List.map_cons, List.map_nil]
  rw [List.Nodup.idxOf_getElem h i hi, List.Nodup.idxOf_getElem h j hj]
  exact List.cons_lt_cons_iff.2 (.inl hij)

/-- **C51** (sorted files are model input).  Take n-gram files in any order; the 1-grams are the vocabulary.  `sort_grams` (with any memory that leaves a
last batch of more than one n-gram) turns each of the others into a file of the same n-grams and counts, and the sorted files are what the builders of the
count models require (`Spec.CountFiles`), so everything shown for models built from such files holds for them. -/
theorem C51_sorted_files_are_input {S : StdSortFn (List Byte × W)} (hS : Spec.StdSortLib S) {U : List (List Byte)} {files : List (List (List (List Byte) × Nat))}
    {ro : Nat} (h : Spec.UnsortedCounts U files ro) {hv : Mphf (List Byte) 64} (hb : hv.BuiltFrom U) {vocMem mem extra : Nat}
    (hmem : (U.map List.length).sum ≤ vocMem) (hfit : ∀ f ∈ files, ∀ r ∈ f, (joinSp r.1).length ≤ mem)
    (hlast : ∀ f ∈ files.tail, Spec.LastBatchLarge mem (f.map Spec.lineOf)) :
    ∃ sorted : List (List (List (List Byte) × Nat)), sorted.length = files.length ∧ sorted[0]? = files[0]? ∧
      (∀ (k : Nat) (f s : List (List (List Byte) × Nat)), files[k + 1]? = some f → sorted[k + 1]? = some s →
        SortTools.sortGrams S hv vocMem mem extra [] (Spec.gramsText (files.getD 0 [])) (Spec.gramsText f) = some (.ok (Spec.gramsText s))) ∧
      (∀ (k : Nat) (f s : List (List (List Byte) × Nat)), files[k]? = some f → sorted[k]? = some s → s.Perm f) ∧
      Spec.CountFiles U sorted ro ∧ ∀ s ∈ sorted, s ≠ [] ∧ ∀ r ∈ s, ∀ w ∈ r.1, Spec.FileWord w := by
  have hU := h.vocabulary
  obtain ⟨f0, hf0, hu⟩ := Option.map_eq_some_iff.1 h.unigrams
  have hf0' : files.getD 0 [] = f0 := by rw [List.getD_eq_getElem?_getD, hf0]; rfl
  have hUpos := List.length_pos_iff.2 hU.nonempty
  have hlen : ∀ f ∈ files, f.length < 2 ^ 56 := fun f hf => Nat.lt_of_le_of_lt (Nat.le_mul_of_pos_right _ hUpos) (h.size f hf)
  obtain ⟨sorted, hl, hs⟩ := choose_list files
    (fun k f s => s.Perm f ∧ ((s.map (·.1)).Pairwise fun p q => p.map (Spec.idIn U) < q.map (Spec.idIn U)) ∧ (k = 0 → s = f) ∧
      (k ≠ 0 → SortTools.sortGrams S hv vocMem mem extra [] (Spec.gramsText (files.getD 0 [])) (Spec.gramsText f) = some (.ok (Spec.gramsText s)))) (by
    intro k f hf
    have hfm := List.mem_of_getElem? hf
    cases k with
    | zero =>
      rw [hf0] at hf; cases hf
      refine ⟨f0, List.Perm.refl _, ?_, fun _ => rfl, fun hk => absurd rfl hk⟩
      rw [hu]; exact words_sorted hU.nodup
    | succ k =>
      have hg := h.grams (k + 1) f hf
      obtain ⟨s, s1, s2, s3⟩ := C51_sort_grams_text (extra := extra) hS hU hb (voc := f0) hu hmem (k := k + 2) (by omega) (f := f)
        (by have := hlen f hfm; omega) (fun r hr => ⟨(hg r hr).1, by have := (hg r hr).2; omega, hfit f hfm r hr⟩)
        (hlast f (List.mem_of_getElem? (i := k) (by rw [List.getElem?_tail]; exact hf)))
      refine ⟨s, s1, C51_distinct s1 (h.distinct f hfm) (fun r hr => (hg r hr).1.2) s2, fun hk => absurd hk (by omega), fun _ => ?_⟩
      rw [hf0', s3]; simp)
  have hget : ∀ (k : Nat) (f : List (List (List Byte) × Nat)), files[k]? = some f → ∃ s, sorted[k]? = some s := by
    intro k f hf
    have := (List.getElem?_eq_some_iff.1 hf).1
    exact ⟨_, List.getElem?_eq_getElem (by omega)⟩
  have hget' : ∀ (k : Nat) (s : List (List (List Byte) × Nat)), sorted[k]? = some s → ∃ f, files[k]? = some f := by
    intro k s hf
    have := (List.getElem?_eq_some_iff.1 hf).1
    exact ⟨_, List.getElem?_eq_getElem (by omega)⟩
  have h0 : sorted[0]? = files[0]? := by
    obtain ⟨s, e⟩ := hget 0 f0 hf0
    rw [e, hf0, (hs 0 f0 s hf0 e).2.2.1 rfl]
  have hmemS : ∀ s ∈ sorted, ∃ (k : Nat) (f : List (List (List Byte) × Nat)), files[k]? = some f ∧ sorted[k]? = some s ∧ s.Perm f := by
    intro s hsm
    obtain ⟨k, e⟩ := List.mem_iff_getElem?.1 hsm
    obtain ⟨f, e'⟩ := hget' k s e
    exact ⟨k, f, e', e, (hs k f s e' e).1⟩
  have hlev : ∀ (k : Nat) (l : List (List (List Byte))), (sorted.map (·.map (·.1)))[k]? = some l →
      ∃ f s : List (List (List Byte) × Nat), files[k]? = some f ∧ sorted[k]? = some s ∧ s.Perm f ∧ l = s.map (·.1) := by
    intro k l e
    rw [List.getElem?_map] at e
    obtain ⟨s, e1, e2⟩ := Option.map_eq_some_iff.1 e
    obtain ⟨f, e3⟩ := hget' k s e1
    exact ⟨f, s, e3, e1, (hs k f s e3 e1).1, e2.symm⟩
  have hC : Spec.CountFiles U sorted ro := by
    refine ⟨⟨hU.nodup, ?_, ?_, ?_, ?_, ?_, ?_, ?_⟩, by rw [hl]; exact h.order_min, by rw [hl]; exact h.order_max, h.remapping, ?_, ?_⟩
    · rw [List.getElem?_map, h0]; exact h.unigrams
    · intro k l e
      obtain ⟨f, s, e1, e2, e3, rfl⟩ := hlev k l e
      intro e4
      have e5 : s = [] := by simpa using e4
      rw [e5] at e3
      exact h.nonempty f (List.mem_of_getElem? e1) e3.symm.eq_nil
    · intro k l e q hq
      obtain ⟨f, s, e1, e2, e3, rfl⟩ := hlev k l e
      obtain ⟨r, hr', rfl⟩ := List.mem_map.1 hq
      exact (h.grams k f e1 r (e3.mem_iff.1 hr')).1.1
    · intro k l e q hq
      obtain ⟨f, s, e1, e2, e3, rfl⟩ := hlev k l e
      obtain ⟨r, hr', rfl⟩ := List.mem_map.1 hq
      exact (h.grams k f e1 r (e3.mem_iff.1 hr')).1.2
    · intro k l e
      obtain ⟨f, s, e1, e2, e3, rfl⟩ := hlev k l e
      exact (hs k f s e1 e2).2.1
    · intro k l l' e e' q hq
      obtain ⟨f, s, e1, e2, e3, rfl⟩ := hlev k l e
      obtain ⟨g, s', g1, g2, g3, rfl⟩ := hlev (k + 1) l' e'
      obtain ⟨r, hr', rfl⟩ := List.mem_map.1 hq
      obtain ⟨c, hc⟩ := h.prefix_closed k f g e1 g1 r (g3.mem_iff.1 hr')
      exact List.mem_map.2 ⟨_, e3.mem_iff.2 hc, rfl⟩
    · intro hro k l' l hk e' e q hq
      obtain ⟨f, s, e1, e2, e3, rfl⟩ := hlev ro l e
      obtain ⟨g, s', g1, g2, g3, rfl⟩ := hlev k l' e'
      obtain ⟨r, hr', rfl⟩ := List.mem_map.1 hq
      obtain ⟨c, hc⟩ := h.windows hro k f g hk g1 e1 r (g3.mem_iff.1 hr')
      exact List.mem_map.2 ⟨_, e3.mem_iff.2 hc, rfl⟩
    · intro s hsm r hr'
      obtain ⟨k, f, e1, e2, e3⟩ := hmemS s hsm
      exact (h.grams k f e1 r (e3.mem_iff.1 hr')).2
    · intro s hsm
      obtain ⟨k, f, e1, e2, e3⟩ := hmemS s hsm
      rw [e3.length_eq]
      exact h.size f (List.mem_of_getElem? e1)
  refine ⟨sorted, hl, h0, fun k f s e e' => (hs (k + 1) f s e e').2.2.2 (by omega), fun k f s e e' => (hs k f s e e').1, hC, ?_⟩
  intro s hsm
  obtain ⟨k, f, e1, e2, e3⟩ := hmemS s hsm
  refine ⟨fun e => ?_, fun r hr' w hw => hU.words w ((h.grams k f e1 r (e3.mem_iff.1 hr')).1.2 w hw)⟩
  rw [e] at e3
  exact h.nonempty f (List.mem_of_getElem? e1) e3.symm.eq_nil

/-- **C51** (sorting, then building).  Take n-gram files in any order; the 1-grams are the vocabulary.  `sort_grams` (with any memory that leaves a last
batch of more than one n-gram) turns each of the others into a file on which the builder of count tries succeeds, and the trie returns for every n-gram
its count. -/
theorem C51_sort_then_build {S : StdSortFn (List Byte × W)} (hS : Spec.StdSortLib S) {U : List (List Byte)} {files : List (List (List (List Byte) × Nat))}
    {ro : Nat} (h : Spec.UnsortedCounts U files ro) {hv : Mphf (List Byte) 64} (hb : hv.BuiltFrom U) {vocMem mem extra : Nat}
    (hmem : (U.map List.length).sum ≤ vocMem) (hfit : ∀ f ∈ files, ∀ r ∈ f, (joinSp r.1).length ≤ mem)
    (hlast : ∀ f ∈ files.tail, Spec.LastBatchLarge mem (f.map Spec.lineOf)) :
    ∃ sorted : List (List (List (List Byte) × Nat)), sorted.length = files.length ∧ sorted[0]? = files[0]? ∧
      (∀ (k : Nat) (f s : List (List (List Byte) × Nat)), files[k + 1]? = some f → sorted[k + 1]? = some s →
        SortTools.sortGrams S hv vocMem mem extra [] (Spec.gramsText (files.getD 0 [])) (Spec.gramsText f) = some (.ok (Spec.gramsText s))) ∧
      ∀ {L : SortLib}, L.Valid → ∀ {hr : Nat → Mphf Nat 64}, Spec.RangeHashes hr sorted → ∀ cr : CountRanks,
        (cr = .psef → ∀ f ∈ files, f.length < 2 ^ 32) →
        ∃ t, TrieCount.buildFiles L hv (GramsImpl.fastEF hr) cr.impl ro (sorted.map Spec.gramsText) = some (.ok t) ∧
          ∀ f ∈ files, ∀ gram count, (gram, count) ∈ f → t.lookupString (joinSp gram) = some count := by
  obtain ⟨sorted, hl, h0, hs, hp, hC, hw⟩ := C51_sorted_files_are_input (extra := extra) hS h hb hmem hfit hlast
  refine ⟨sorted, hl, h0, hs, ?_⟩
  intro L hL hr hh cr hcr
  obtain ⟨t, t1, t2⟩ := C44_trie_count_files_to_answers hL hC hw hb hh cr (by
    intro hcc s hsm
    obtain ⟨k, e⟩ := List.mem_iff_getElem?.1 hsm
    have := (List.getElem?_eq_some_iff.1 e).1
    have e1 : files[k]? = some (files[k]'(by omega)) := List.getElem?_eq_getElem _
    rw [(hp k _ s e1 e).length_eq]
    exact hcr hcc _ (List.mem_of_getElem? e1))
  refine ⟨t, t1, fun f hf gram count hgc => ?_⟩
  obtain ⟨k, e1⟩ := List.mem_iff_getElem?.1 hf
  have := (List.getElem?_eq_some_iff.1 e1).1
  have e2 : sorted[k]? = some (sorted[k]'(by omega)) := List.getElem?_eq_getElem _
  exact t2 _ (List.mem_of_getElem? e2) gram count ((hp k f _ e1 e2).mem_iff.2 hgc)


/-! ## A concrete run -/

namespace SortToolsExample

/-- A `std::sort`. -/
def S {R : Type} : StdSortFn R := fun cmp l => some ((l.attach.mergeSort fun a b => !(cmp b.1 a.1 == some true)).map (·.1))

theorem S_ok {R : Type} : Spec.StdSortLib (S (R := R)) := by
  intro cmp l h
  have hle : ∀ a b : {x // x ∈ l}, (!(cmp b.1 a.1 == some true)) = true ↔ cmp b.1 a.1 = some false := by
    intro a b
    obtain ⟨v, e⟩ := h.defined b.1 b.2 a.1 a.2
    rw [e]; cases v <;> simp
  refine ⟨_, rfl, ?_, ?_⟩
  · have := (List.mergeSort_perm l.attach fun a b => !(cmp b.1 a.1 == some true)).map (·.1)
    exact this.trans (by rw [List.attach_map_subtype_val])
  · rw [List.pairwise_map]
    refine (List.pairwise_mergeSort (le := fun a b : {x // x ∈ l} => !(cmp b.1 a.1 == some true)) ?_ ?_ l.attach).imp fun hab => (hle _ _).1 hab
    · intro a b c h1 h2
      rw [hle] at h1 h2 ⊢
      exact h.negtrans c.1 c.2 b.1 b.2 a.1 a.2 h2 h1
    · intro a b
      rw [Bool.or_eq_true, hle, hle]
      obtain ⟨v, e⟩ := h.defined b.1 b.2 a.1 a.2
      obtain ⟨v', e'⟩ := h.defined a.1 a.2 b.1 b.2
      cases v with
      | false => exact .inl e
      | true =>
        cases v' with
        | false => exact .inr e'
        | true =>
          have := h.trans a.1 a.2 b.1 b.2 a.1 a.2 e' e
          rw [h.irrefl a.1 a.2] at this; cases this

open MphCountExample (w)

/-- Three unigrams, and four bigrams in no order. -/
def files : List (List (List (List Byte) × Nat)) :=
  [[([w 0], 5), ([w 1], 7), ([w 2], 2)], [([w 1, w 2], 3), ([w 2, w 0], 4), ([w 0, w 2], 2), ([w 0, w 1], 3)]]

/-- The vocabulary. -/
def U : List (List Byte) := [w 0, w 1, w 2]

theorem words : Spec.Words U where
  nonempty := by decide
  nodup := by decide
  words := by
    intro v hv
    simp [U] at hv
    rcases hv with rfl | rfl | rfl <;> exact FilesExample.words _ (by decide)
  size := by decide

theorem unsorted : Spec.UnsortedCounts U files 0 where
  vocabulary := words
  unigrams := rfl
  nonempty := by intro f hf; simp [files] at hf; rcases hf with rfl | rfl <;> simp
  grams := by
    intro k f h r hr
    unfold Spec.GramOf
    rcases k with _ | _ | k <;> simp [files] at h <;> subst h <;> simp at hr <;> rcases hr with rfl | rfl | rfl | rfl <;> simp [U]
  distinct := by intro f hf; simp [files] at hf; rcases hf with rfl | rfl <;> decide
  prefix_closed := by
    intro k f g h h' r hr
    rcases k with _ | _ | k <;> simp [files] at h h'
    subst h h'
    simp at hr
    rcases hr with rfl | rfl | rfl | rfl
    · exact ⟨7, by simp⟩
    · exact ⟨2, by simp⟩
    · exact ⟨5, by simp⟩
    · exact ⟨5, by simp⟩
  windows := by intro h; exact absurd rfl h
  order_min := by decide
  order_max := by decide
  remapping := by decide
  size := by intro f hf; simp [files] at hf; rcases hf with rfl | rfl <;> simp [U]

example := C51_sorted_files_are_input (S_ok (R := List Byte × W)) unsorted
  (TextExample.built3 (keys := [w 0, w 1, w 2]) rfl (by decide)) (vocMem := 10) (mem := 6) (extra := 0) (by decide)
  (by intro f hf; simp [files] at hf; rcases hf with rfl | rfl <;> decide)
  (by intro f hf; simp [files] at hf; subst hf; exact ⟨[Spec.lineOf ([w 0, w 2], 2), Spec.lineOf ([w 0, w 1], 3)], by decide +kernel, by decide⟩)

/-- The hypotheses of C51 are met: the four bigrams are sorted in two batches of two. -/
example := C51_sort_then_build (S_ok (R := List Byte × W)) unsorted
  (TextExample.built3 (keys := [w 0, w 1, w 2]) rfl (by decide)) (vocMem := 10) (mem := 6) (extra := 0) (by decide)
  (by intro f hf; simp [files] at hf; rcases hf with rfl | rfl <;> decide)
  (by intro f hf; simp [files] at hf; subst hf; exact ⟨[Spec.lineOf ([w 0, w 2], 2), Spec.lineOf ([w 0, w 1], 3)], by decide +kernel, by decide⟩)

end SortToolsExample

end Tongrams
