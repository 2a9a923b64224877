import Verif.Arpa
import Verif.MphProb

/-!
# From files to answers

The models are built from the bytes of the count files (C41) or of the ARPA file (C43), and queried with strings: the pieces verified in other modules are put together.
-/
namespace Tongrams

/-- The words of a query, as both `map_query` cut it (include/mappers.hpp:25-58 and 132-223): the loop from `pos` with `n` bytes left, `prev` the start of the current word; a
query that starts with a space is the word " ". -/
def queryLoop (m : Mem) (first : Nat) : Nat → Nat → Nat → Option (List ByteRange)
  | 0, pos, prev => some [(prev, pos)]
  | n + 1, pos, prev => (m[pos]?).bind fun b =>
    if b = sp then
      if pos = first then some [(prev, pos + 1)]
      else (queryLoop m first n (pos + 1) (pos + 1)).map ((prev, pos) :: ·)
    else queryLoop m first n (pos + 1) prev

/-- The words of the string `q` (mappers.hpp:25-58). -/
def queryWords (q : List Byte) : Option (List (List Byte)) := (queryLoop q 0 q.length 0 0).map (·.map (slice q))

namespace TrieCount

/-- `trie_count_lm::lookup` of a string (include/trie_count_lm.hpp:251-276). -/
def lookupString (t : TrieCount (List Byte)) (q : List Byte) : Option Nat := (queryWords q).bind t.lookup

/-- The builder on the bytes of the files of the orders `1 .. order` (trie_count_lm.hpp:16-98).  The words of a line are those between spaces (the
builder finds them with `bytes::predecessor`, `bytes::suffix` and `bytes::back_to`, see C32). -/
def buildFiles (L : SortLib) (hv : Mphf (List Byte) 64) (G : GramsImpl) (R : RanksImpl) (ro : Nat) (files : List (List Byte)) :
    Res (TrieCount (List Byte)) :=
  Res.bind (Res.mapM readGrams files) fun fs =>
  Res.bind (Res.lift (fs.mapM fun f => f.mapM fun r => (queryWords r.1).map fun ws => (ws, r.2.toNat))) fun data => TrieCount.build L hv G R ro data

end TrieCount

/-- The builder of a hash count model on the bytes of its files (include/mph_count_lm.hpp:14-80). -/
def MphCount.buildFiles {B : Nat} (L : SortLib) (mem extra : Nat) (hs : Nat → Mphf (List Byte) B) (files : List (List Byte)) : Res (MphCount B) :=
  Res.bind (Res.mapM readGrams files) fun fs => MphCount.build L mem extra hs (fs.map (·.map fun r => (r.1, r.2.toNat)))

/-- The records of all the sections up to `order`: the first pass gives the offset of each section, `arpa_iterator`s read the records from there
(include/trie_prob_lm.hpp:35-98, include/mph_prob_lm.hpp:29-80).  The builders quantise the values gathered in the first pass; they are those of the
records (C43), so here they are taken from the records. -/
def arpaSections {F : Type} [Zero F] [LT F] [DecidableLT F] (strtod : List Byte → F × Nat) (file : List Byte) (order : Nat) :
    Res (List (List (List Byte × F × F))) :=
  Res.bind (arpaFirstPass strtod file order) fun vs =>
  Res.mapM (fun x => arpaSection strtod file (x.2 + 1) x.1.2) vs.zipIdx

/-- The builder of a hash backoff model on the bytes of an ARPA file (include/mph_prob_lm.hpp:14-110). -/
def MphProb.buildArpa {F : Type} [FloatArith F] {B : Nat} (strtod : List Byte → F × Nat) (fb : FloatBits F) (sort : List F → List F) (negInf default unk : F)
    (mem extra : Nat) (hs : Nat → Mphf (List Byte) B) (pb bb order : Nat) (file : List Byte) : Res (MphProb F B) :=
  Res.bind (arpaSections strtod file order) fun data => MphProb.build fb sort negInf default unk mem extra hs pb bb data

/-- The builder of a trie backoff model on the bytes of an ARPA file (include/trie_prob_lm.hpp:19-110).  The words of an n-gram are those between spaces (C32). -/
def TrieProb.buildArpa {F : Type} [FloatArith F] (strtod : List Byte → F × Nat) (fb : FloatBits F) (sort : List F → List F) (negInf default : F)
    (hv : Mphf (List Byte) 64) (G : GramsImpl) (R : RanksImpl) (ro : Nat) (unk : F) (pb bb order : Nat) (file : List Byte) : Res (TrieProb (List Byte) F) :=
  Res.bind (arpaSections strtod file order) fun fs =>
  Res.bind (Res.lift (fs.mapM fun f => f.mapM fun r => (queryWords r.1).map fun ws => (ws, r.2))) fun data =>
  TrieProb.build fb sort negInf unkBytes default hv G R ro unk pb bb data

/-! ## Specification -/

/-- A word of a file: no space, tab or newline, and not empty. -/
def Spec.FileWord (w : List Byte) : Prop := w ≠ [] ∧ sp ∉ w ∧ tab ∉ w ∧ nl ∉ w

/-- The text of the file of an order: the number of n-grams, then a line for each: its words separated by spaces, a tab, its count. -/
def Spec.gramsText (f : List (List (List Byte) × Nat)) : List Byte := Spec.countFile (f.map fun r => (joinSp r.1, BitVec.ofNat 64 r.2))

/-- The lines of the ARPA sections list the n-grams of `data`, with their probabilities and backoffs. -/
def Spec.ArpaLists {F : Type} [Zero F] [LT F] [DecidableLT F] (sections : List (List (Spec.ArpaLine F) × Nat)) (data : List (List (List (List Byte) × F × F))) : Prop :=
  sections.map (fun s => s.1.map (·.record)) = Spec.lines data

/-! ## Proofs -/

theorem queryLoop_word (m : Mem) (first : Nat) : ∀ (w : List Byte) (pos prev n : Nat), At m pos w → sp ∉ w →
    queryLoop m first (w.length + n) pos prev = queryLoop m first n (pos + w.length) prev := by
  intro w
  induction w with
  | nil => intro pos prev n _ _; simp
  | cons b w ih =>
    intro pos prev n hat hsp
    rw [At.cons] at hat
    rw [List.length_cons, show w.length + 1 + n = (w.length + n) + 1 by omega, queryLoop, hat.1, Option.bind_some, if_neg (by
      intro e; exact hsp (by simp [e])), ih _ _ _ hat.2 (by intro h; exact hsp (by simp [h]))]
    congr 1
    omega

theorem queryLoop_ok {m : Mem} {first : Nat} : ∀ (ws : List (List Byte)) (off : Nat), At m off (joinSp ws) → ws ≠ [] → (∀ w ∈ ws, w ≠ [] ∧ sp ∉ w) →
    first ≤ off → queryLoop m first (joinSp ws).length off off = some (wordRanges off ws) := by
  intro ws
  induction ws with
  | nil => intro off _ h; exact absurd rfl h
  | cons w ws ih =>
    intro off hat _ hw hf
    obtain ⟨hw1, hw2⟩ := hw w (by simp)
    by_cases hne : ws = []
    · subst hne
      have := queryLoop_word m first w off off 0 (by simpa [joinSp] using hat) hw2
      simp only [Nat.add_zero] at this
      simp only [joinSp, wordRanges]
      rw [this, queryLoop]
    · rw [joinSp_cons hne] at hat ⊢
      rw [At.append, At.cons] at hat
      obtain ⟨a1, a2, a3⟩ := hat
      rw [List.length_append, List.length_cons, queryLoop_word m first w off off _ a1 hw2, queryLoop, a2, Option.bind_some, if_pos rfl,
        if_neg (by have := List.length_pos_iff.2 hw1; omega), ih _ a3 hne (fun x hx => hw x (by simp [hx])) (by omega)]
      rfl

/-- Cutting the string of some words gives the words. -/
theorem queryWords_ok {ws : List (List Byte)} (hne : ws ≠ []) (hw : ∀ w ∈ ws, w ≠ [] ∧ sp ∉ w) : queryWords (joinSp ws) = some ws := by
  have hat : At (joinSp ws) 0 (joinSp ws) := by unfold At; simp
  unfold queryWords
  rw [queryLoop_ok ws 0 hat hne hw (Nat.le_refl _), Option.map_some, slices_wordRanges hat]

theorem mapM_map_ok {α β γ : Type} {g : α → β} {f : β → Option γ} {h : α → γ} : ∀ {l : List α}, (∀ x ∈ l, f (g x) = some (h x)) →
    (l.map g).mapM f = some (l.map h) := by
  intro l hl
  induction l with
  | nil => rfl
  | cons a l ih =>
    rw [List.map_cons, List.mapM_cons, hl a (by simp)]
    simp only [Option.bind_eq_bind, Option.bind_some, List.map_cons]
    rw [ih fun x hx => hl x (by simp [hx])]
    rfl

theorem Res.mapM_map_ok {α β γ : Type} {g : α → β} {f : β → Res γ} {h : α → γ} : ∀ {l : List α}, (∀ x ∈ l, f (g x) = some (.ok (h x))) →
    Res.mapM f (l.map g) = some (.ok (l.map h)) := by
  intro l hl
  induction l with
  | nil => rfl
  | cons a l ih =>
    rw [List.map_cons, Res.mapM, hl a (by simp), Res.bind_ok, ih fun x hx => hl x (by simp [hx])]
    rfl

theorem cleanGram {ws : List (List Byte)} (h : ∀ w ∈ ws, Spec.FileWord w) : Spec.CleanGram (joinSp ws) := by
  induction ws with
  | nil => exact ⟨by simp [joinSp], by simp [joinSp]⟩
  | cons w ws ih =>
    obtain ⟨-, -, h2, h3⟩ := h w (by simp)
    obtain ⟨i1, i2⟩ := ih fun x hx => h x (by simp [hx])
    by_cases hne : ws = []
    · subst hne; exact ⟨by simpa [joinSp] using h2, by simpa [joinSp] using h3⟩
    · rw [joinSp_cons hne]
      refine ⟨?_, ?_⟩
      · simp only [List.mem_append, List.mem_cons, not_or]; exact ⟨h2, by decide, i1⟩
      · simp only [List.mem_append, List.mem_cons, not_or]; exact ⟨h3, by decide, i2⟩

theorem readGrams_text {f : List (List (List Byte) × Nat)} (hne : f ≠ []) (hlen : f.length < 2 ^ 64) (hw : ∀ r ∈ f, ∀ w ∈ r.1, Spec.FileWord w) :
    readGrams (Spec.gramsText f) = some (.ok (f.map fun r => (joinSp r.1, BitVec.ofNat 64 r.2))) := by
  refine C41_count_file _ (by simpa using hne) (by simpa using hlen) ?_
  intro r hr
  simp only [List.mem_map] at hr
  obtain ⟨x, hx, rfl⟩ := hr
  exact cleanGram (hw x hx)

theorem files_grams {U : List (List Byte)} {files : List (List (List (List Byte) × Nat))} {ro : Nat}
    (h : Spec.CountFiles U files ro) (hw : ∀ f ∈ files, f ≠ [] ∧ ∀ r ∈ f, ∀ w ∈ r.1, Spec.FileWord w) :
    ∀ f ∈ files, ∀ r ∈ f, r.1 ≠ [] ∧ ∀ w ∈ r.1, w ≠ [] ∧ sp ∉ w := by
  intro f hf r hrf
  obtain ⟨k, hk⟩ := List.getElem?_of_mem hf
  have := h.data.len k (f.map (·.1)) (by rw [List.getElem?_map, hk]; rfl) r.1 (List.mem_map_of_mem hrf)
  refine ⟨by intro e; rw [e] at this; simp at this, fun w hww => ?_⟩
  obtain ⟨w1, w2, -⟩ := (hw f hf).2 r hrf w hww
  exact ⟨w1, w2⟩

/-- Building a count trie from the texts of the files is building it from their n-grams. -/
theorem TrieCount.buildFiles_eq (L : SortLib) {U : List (List Byte)} {files : List (List (List (List Byte) × Nat))} {ro : Nat}
    (h : Spec.CountFiles U files ro) (hw : ∀ f ∈ files, f ≠ [] ∧ ∀ r ∈ f, ∀ w ∈ r.1, Spec.FileWord w)
    (hv : Mphf (List Byte) 64) (G : GramsImpl) (R : RanksImpl) :
    TrieCount.buildFiles L hv G R ro (files.map Spec.gramsText) = TrieCount.build L hv G R ro files := by
  have hgram := files_grams h hw
  unfold TrieCount.buildFiles
  have hread : Res.mapM readGrams (files.map Spec.gramsText) =
      some (.ok (files.map fun f => f.map fun r => (joinSp r.1, BitVec.ofNat 64 r.2))) :=
    Res.mapM_map_ok fun f hf => readGrams_text (hw f hf).1 (by have := TrieCount.len_of_size h hf; omega) (hw f hf).2
  rw [hread, Res.bind_ok]
  have hdata : (files.map fun f => f.map fun r => (joinSp r.1, BitVec.ofNat 64 r.2)).mapM
      (fun f => f.mapM fun r => (queryWords r.1).map fun ws => (ws, r.2.toNat)) = some files := by
    have hin : ∀ f ∈ files, (f.map fun r => (joinSp r.1, BitVec.ofNat 64 r.2)).mapM
        (fun r => (queryWords r.1).map fun ws => (ws, r.2.toNat)) = some f := by
      intro f hf
      have := mapM_map_ok (g := fun r : List (List Byte) × Nat => (joinSp r.1, BitVec.ofNat 64 r.2))
        (f := fun r => (queryWords r.1).map fun ws => (ws, r.2.toNat)) (h := id) (l := f) (by
          intro r hrf
          simp only
          rw [queryWords_ok (hgram f hf r hrf).1 (hgram f hf r hrf).2, Option.map_some, BitVec.toNat_ofNat,
            Nat.mod_eq_of_lt (Nat.lt_of_lt_of_le (h.counts f hf r hrf) (Nat.sub_le _ _))]
          rfl)
      rw [this, List.map_id]
    have := mapM_map_ok (h := id) hin
    rw [this, List.map_id]
  rw [hdata, Res.lift_some, Res.bind_ok]

/-- **C44** (trie count models).  A trie built from the text of the count files, whatever the words are (not empty, without spaces, tabs and newlines),
returns for the string of each n-gram listed the count in its file. -/
theorem C44_trie_count_files_to_answers {L : SortLib} (hL : L.Valid) {U : List (List Byte)} {files : List (List (List (List Byte) × Nat))} {ro : Nat}
    (h : Spec.CountFiles U files ro) (hw : ∀ f ∈ files, f ≠ [] ∧ ∀ r ∈ f, ∀ w ∈ r.1, Spec.FileWord w)
    {hv : Mphf (List Byte) 64} (hb : hv.BuiltFrom U) {hr : Nat → Mphf Nat 64} (hh : Spec.RangeHashes hr files) (cr : CountRanks)
    (hcr : cr = .psef → ∀ f ∈ files, f.length < 2 ^ 32) :
    ∃ t, TrieCount.buildFiles L hv (GramsImpl.fastEF hr) cr.impl ro (files.map Spec.gramsText) = some (.ok t) ∧
      ∀ f ∈ files, ∀ gram count, (gram, count) ∈ f → t.lookupString (joinSp gram) = some count := by
  obtain ⟨t, e1, e2⟩ := C24_stored_gram_returns_its_count hL h hb hh cr hcr
  have hgram := files_grams h hw
  refine ⟨t, by rw [TrieCount.buildFiles_eq L h hw, e1], ?_⟩
  · intro f hf gram count hm
    unfold TrieCount.lookupString
    rw [queryWords_ok (hgram f hf _ hm).1 (hgram f hf _ hm).2, Option.bind_some, e2 f hf gram count hm]

/-- **C44** (hash count models).  A hash model built from the text of the count files returns for the string of each n-gram listed the count in its file. -/
theorem C44_mph_count_files_to_answers {B : Nat} {L : SortLib} (hL : L.Valid) {mem extra : Nat} {files : List (List (List (List Byte) × Nat))}
    (h : Spec.CountLists mem files) (hw : ∀ f ∈ files, ∀ r ∈ f, ∀ w ∈ r.1, Spec.FileWord w)
    (hB : B = 64 ∨ (B = 32 ∧ ∀ f ∈ files, f.length < 2 ^ 26)) (hn : ∀ f ∈ files, f.length < 2 ^ 57) {hs : Nat → Mphf (List Byte) B}
    (hb : ∀ (k : Nat) (f : List (List (List Byte) × Nat)), files[k]? = some f → (hs k).BuiltFrom (f.map fun r => joinSp r.1)) :
    ∃ m, MphCount.buildFiles L mem extra hs (files.map Spec.gramsText) = some (.ok m) ∧
      ∀ f ∈ files, ∀ gram count, (gram, count) ∈ f → m.lookup (joinSp gram) = some count := by
  obtain ⟨m, e1, e2⟩ := C26_stored_gram_returns_its_count hL (extra := extra) h hB hn hb
  refine ⟨m, ?_, e2⟩
  unfold MphCount.buildFiles
  rw [Res.mapM_map_ok (h := fun f => f.map fun r => (joinSp r.1, BitVec.ofNat 64 r.2)) fun f hf =>
    readGrams_text (h.nonempty f hf) (by have := hn f hf; omega) (hw f hf), Res.bind_ok, ← e1]
  congr 1
  unfold Spec.lines
  rw [List.map_map]
  apply List.map_congr_left
  intro f hf
  rw [Function.comp, List.map_map]
  apply List.map_congr_left
  intro r hr
  rw [Function.comp, BitVec.toNat_ofNat, Nat.mod_eq_of_lt (Nat.lt_of_lt_of_le (h.counts f hf r hr) (Nat.sub_le _ _))]

section
variable {F : Type} [FloatArith F]

theorem arpaSections_ok {strtod : List Byte → F × Nat} (lead gap : Nat) {sections : List (List (Spec.ArpaLine F) × Nat)} {tail : List Byte}
    (h : Spec.GoodArpa strtod sections tail) {data : List (List (List (List Byte) × F × F))} (hd : Spec.ArpaLists sections data) :
    arpaSections strtod (Spec.arpaText lead gap sections tail) sections.length = some (.ok (Spec.lines data)) := by
  obtain ⟨vs, e1, e2, e3⟩ := C43_arpa_file_is_read lead gap h
  unfold arpaSections
  rw [e1, Res.bind_ok, ← hd]
  have hlen : vs.length = sections.length := by have := congrArg List.length e2; simpa using this
  obtain ⟨bs, b1, b2, b3⟩ := Res.mapM_get (f := fun x : (List (F × F) × Nat) × Nat => arpaSection strtod (Spec.arpaText lead gap sections tail) (x.2 + 1) x.1.2)
    (l := vs.zipIdx) (P := fun i _ b => ∀ s, sections[i]? = some s → b = s.1.map (·.record)) (by
      intro i a ha
      rw [List.getElem?_zipIdx] at ha
      obtain ⟨v, hv, rfl⟩ := Option.map_eq_some_iff.1 ha
      have hi : i < sections.length := by have := (List.getElem?_eq_some_iff.1 hv).1; omega
      refine ⟨sections[i].1.map (·.record), ?_, ?_⟩
      · have := e3 i sections[i] v (List.getElem?_eq_getElem hi) hv
        simpa using this
      · intro s hs
        rw [List.getElem?_eq_getElem hi] at hs
        cases hs; rfl)
  rw [b1]
  congr 2
  apply List.ext_getElem?
  intro i
  rw [List.getElem?_map]
  rw [List.length_zipIdx] at b2
  by_cases hi : i < sections.length
  · rw [List.getElem?_eq_getElem hi, List.getElem?_eq_getElem (by omega), Option.map_some]
    have hz : i < vs.zipIdx.length := by rw [List.length_zipIdx]; omega
    exact congrArg some (b3 i _ _ (List.getElem?_eq_getElem hz) (List.getElem?_eq_getElem (by omega)) _ (List.getElem?_eq_getElem hi))
  · rw [List.getElem?_eq_none (by omega), List.getElem?_eq_none (by omega)]; rfl

/-- **C44** (hash backoff models).  A hash model built from the bytes of an ARPA file scores the words of any sentence of a text like the (quantised) ARPA
model whose n-grams, probabilities and backoffs are those of the lines of the file. -/
theorem C44_mph_prob_arpa_to_scores {B : Nat} {strtod : List Byte → F × Nat} (lead gap : Nat) {sections : List (List (Spec.ArpaLine F) × Nat)} {tail : List Byte}
    (hg : Spec.GoodArpa strtod sections tail) (fb : FloatBits F) {sort : List F → List F} (hsort : ∀ l, (sort l).Perm l ∧ (sort l).Pairwise (· ≤ ·))
    (negInf default unk : F) {mem pb bb : Nat} (extra : Nat) {hs : Nat → Mphf (List Byte) B} {data : List (List (List (List Byte) × F × F))}
    (hd : Spec.ArpaLists sections data) (h : Spec.MphProbInput fb mem pb bb hs data) :
    ∃ m qp qb, MphProb.buildArpa strtod fb sort negInf default unk mem extra hs pb bb sections.length (Spec.arpaText lead gap sections tail) = some (.ok m) ∧
      Spec.Quantised data pb bb qp qb ∧
      ∀ (text : Mem) (off : Nat) (sentence : List (List Byte)) (d : Nat) (one : F), At text off (joinSp sentence) →
        (∀ w ∈ sentence, Spec.IsWord w) → Spec.GramsRecognised hs data sentence →
        (m.scorer fb text).scoreSentence d one (wordRanges off sentence) =
          some ((Spec.Arpa.ofData data (Spec.unkProb Spec.unkText default (data.getD 0 []) unk) qp qb).wordScores sentence) := by
  obtain ⟨m, qp, qb, e1, e2⟩ := C28_mph_sentence_scores fb hsort negInf default unk extra h
  refine ⟨m, qp, qb, ?_, e2⟩
  unfold MphProb.buildArpa
  rw [arpaSections_ok lead gap hg hd, Res.bind_ok, e1]

/-- Building a trie from the text of an ARPA file is building it from the sections the text lists. -/
theorem TrieProb.buildArpa_eq {strtod : List Byte → F × Nat} (lead gap : Nat) {sections : List (List (Spec.ArpaLine F) × Nat)} {tail : List Byte}
    (hg : Spec.GoodArpa strtod sections tail) (fb : FloatBits F) (sort : List F → List F) (negInf default unk : F)
    {data : List (List (List (List Byte) × F × F))} (ro pb bb : Nat) (hd : Spec.ArpaLists sections data)
    (hwords : ∀ f ∈ data, ∀ r ∈ f, ∀ w ∈ r.1, w ≠ [] ∧ sp ∉ w) (ha : Spec.ArpaFiles data) (hv : Mphf (List Byte) 64) (G : GramsImpl) (R : RanksImpl) :
    TrieProb.buildArpa strtod fb sort negInf default hv G R ro unk pb bb sections.length (Spec.arpaText lead gap sections tail) =
      TrieProb.build fb sort negInf unkBytes default hv G R ro unk pb bb data := by
  unfold TrieProb.buildArpa
  rw [arpaSections_ok lead gap hg hd, Res.bind_ok]
  have hdata : (Spec.lines data).mapM (fun f => f.mapM fun r => (queryWords r.1).map fun ws => (ws, r.2)) = some data := by
    have hin : ∀ f ∈ data, (f.map fun r => (joinSp r.1, r.2)).mapM
        (fun r => (queryWords r.1).map fun ws => (ws, r.2)) = some f := by
      intro f hf
      have := mapM_map_ok (g := fun r : List (List Byte) × F × F => (joinSp r.1, r.2))
        (f := fun r => (queryWords r.1).map fun ws => (ws, r.2)) (h := id) (l := f) (by
          intro r hrf
          obtain ⟨k, hk⟩ := List.getElem?_of_mem hf
          have hl := ha.len k f hk r hrf
          simp only
          rw [queryWords_ok (by intro e; rw [e] at hl; simp at hl) (hwords f hf r hrf), Option.map_some]
          rfl)
      rw [this, List.map_id]
    have := mapM_map_ok (h := id) hin
    rw [List.map_id] at this
    exact this
  rw [hdata, Res.lift_some, Res.bind_ok]

/-- **C44** (trie backoff models).  A trie built from the bytes of an ARPA file scores the words of any sentence like the (quantised) ARPA
model whose n-grams, probabilities and backoffs are those of the lines of the file. -/
theorem C44_trie_prob_arpa_to_scores {strtod : List Byte → F × Nat} (lead gap : Nat) {sections : List (List (Spec.ArpaLine F) × Nat)} {tail : List Byte}
    (hg : Spec.GoodArpa strtod sections tail) (fb : FloatBits F) {sort : List F → List F} (hsort : ∀ l, (sort l).Perm l ∧ (sort l).Pairwise (· ≤ ·))
    (negInf default unk : F) {U : List (List Byte)} {data : List (List (List (List Byte) × F × F))} {ro pb bb : Nat}
    (hd : Spec.ArpaLists sections data) (hwords : ∀ f ∈ data, ∀ r ∈ f, ∀ w ∈ r.1, w ≠ [] ∧ sp ∉ w)
    (h : Spec.ProbFiles U data ro) (hq : Spec.Quantisable data pb bb) (hbits : pb + bb ≤ 58)
    (hfb : ∀ f0, data[0]? = some f0 → ∀ r ∈ f0, fb.dec (fb.enc r.2.1) = r.2.1 ∧ fb.dec (fb.enc r.2.2) = r.2.2)
    {hv : Mphf (List Byte) 64} (hb : hv.BuiltFrom U) {hr : Nat → Mphf Nat 64} (hh : Spec.RangeHashes hr (TrieProb.asCounts data))
    {junk : Nat → List W} (hj : ∀ k, junk k ≠ []) :
    ∃ t qp qb, TrieProb.buildArpa strtod fb sort negInf default hv (GramsImpl.fastEF hr) (RanksImpl.cv junk) ro unk pb bb sections.length
        (Spec.arpaText lead gap sections tail) = some (.ok t) ∧
      Spec.Quantised data pb bb qp qb ∧
      ∀ (sentence : List (List Byte)) (d : Nat) (one : F), (∀ w ∈ sentence, Spec.Recognised hv U w) →
        (t.scorer fb).scoreSentence d one sentence =
          some ((Spec.Arpa.ofData data (Spec.unkProb Spec.unkText default (data.getD 0 []) unk) qp qb).wordScores sentence) := by
  obtain ⟨t, qp, qb, e1, e2⟩ := C27_trie_sentence_scores fb hsort negInf unkBytes default unk h hq hbits hfb hb hh hj
  refine ⟨t, qp, qb, ?_, e2⟩
  rw [TrieProb.buildArpa_eq lead gap hg fb sort negInf default unk ro pb bb hd hwords h.arpa, e1]

end

/-! ## Concrete files -/

namespace FilesExample

open TrieProbExample (sortQ sortQ_ok fbQ)

theorem words (i : Nat) (hi : i < 3) : Spec.FileWord (MphCountExample.w i) := by
  obtain rfl | rfl | rfl : i = 0 ∨ i = 1 ∨ i = 2 := by omega
  all_goals exact ⟨by decide, by decide, by decide, by decide⟩

theorem files_words : ∀ f ∈ MphCountExample.files, f ≠ [] ∧ ∀ r ∈ f, ∀ w ∈ r.1, Spec.FileWord w := by
  intro f hf
  refine ⟨MphCountExample.files_ok.nonempty f hf, fun r hr v hv => ?_⟩
  have : v ∈ [MphCountExample.w 0, MphCountExample.w 1, MphCountExample.w 2] := by
    simp [MphCountExample.files] at hf
    rcases hf with rfl | rfl <;> simp at hr <;> rcases hr with rfl | rfl | rfl <;> simp at hv ⊢ <;> rcases hv with rfl | rfl <;> simp
  simp at this
  rcases this with rfl | rfl | rfl <;> exact words _ (by decide)

/-- The text of the bigrams. -/
example : Spec.gramsText (MphCountExample.files.getD 1 []) = str "3\na b\t3\na c\t2\nb c\t3\n" := by decide +kernel

theorem files_trie : Spec.CountFiles [MphCountExample.w 0, MphCountExample.w 1, MphCountExample.w 2] MphCountExample.files 0 where
  data := by
    refine ⟨by decide, rfl, ?_, ?_, ?_, ?_, ?_, ?_⟩
    · intro k l h; rcases k with _ | _ | k <;> simp [MphCountExample.files] at h <;> subst h <;> simp
    · intro k l h; rcases k with _ | _ | k <;> simp [MphCountExample.files] at h <;> subst h <;> simp
    · intro k l h; rcases k with _ | _ | k <;> simp [MphCountExample.files] at h <;> subst h <;> simp
    · intro k l h; rcases k with _ | _ | k <;> simp [MphCountExample.files] at h <;> subst h <;> decide
    · intro k l l' h h'; rcases k with _ | _ | k <;> simp [MphCountExample.files] at h h'; subst h h'; simp
    · intro h; exact absurd rfl h
  order_min := by decide
  order_max := by decide
  remapping := by decide
  counts := by intro f hf; simp [MphCountExample.files] at hf; rcases hf with rfl | rfl <;> simp
  size := by simp [MphCountExample.files]

theorem files_hashes : Spec.RangeHashes (fun _ => FastEF.exMphf) MphCountExample.files := by
  intro k f g h h' hn
  rcases k with _ | _ | k <;> simp [MphCountExample.files] at h h' <;> subst h h' <;> exact absurd (by decide +kernel) hn

/-- The hypotheses of C44 are met by the three unigrams and three bigrams of C26's example, for the trie and for the hash model. -/
example : ∃ t, TrieCount.buildFiles exLib (TextExample.mphf3 [MphCountExample.w 0, MphCountExample.w 1, MphCountExample.w 2]) (GramsImpl.fastEF fun _ => FastEF.exMphf)
      RanksImpl.ic 0 (MphCountExample.files.map Spec.gramsText) = some (.ok t) ∧ t.lookupString (str "a c") = some 2 := by
  obtain ⟨t, e1, e2⟩ := C44_trie_count_files_to_answers exLib_valid files_trie files_words
    (TextExample.built3 (keys := [MphCountExample.w 0, MphCountExample.w 1, MphCountExample.w 2]) rfl (by decide)) files_hashes .ic (by simp)
  exact ⟨t, e1, e2 _ (List.mem_of_getElem? (i := 1) rfl) [MphCountExample.w 0, MphCountExample.w 2] 2 (by simp)⟩

example : ∃ m, MphCount.buildFiles exLib 100 0 MphCountExample.hs (MphCountExample.files.map Spec.gramsText) = some (.ok m) ∧
    m.lookup (str "a c") = some 2 := by
  obtain ⟨m, e1, e2⟩ := C44_mph_count_files_to_answers exLib_valid (extra := 0) MphCountExample.files_ok (fun f hf => (files_words f hf).2) (.inl rfl) (by decide)
    MphCountExample.hs_built
  exact ⟨m, e1, e2 _ (List.mem_of_getElem? (i := 1) rfl) [MphCountExample.w 0, MphCountExample.w 2] 2 (by simp [MphCountExample.files])⟩

/-- The numbers of the file, and their values. -/
def numbers : List (List Byte × ℚ) :=
  [(str "-2", -2), (str "-3", -3), (str "-1", -1), (str "-0.5", -1/2), (str "-0.25", -1/4), (str "-0.125", -1/8)]

/-- A `strtod` that knows these numbers. -/
def strtod (s : List Byte) : ℚ × Nat :=
  let skip := if s.head? = some tab then 1 else 0
  match numbers.find? fun e => e.1.isPrefixOf (s.drop skip) with
  | some e => (e.2, skip + e.1.length)
  | none => (0, 0)

/-- A line with the `p`-th number as its probability and the `b`-th as its backoff. -/
def line (p : Nat) (g : String) (b : Option Nat) : Spec.ArpaLine ℚ :=
  let x := numbers.getD p ([], 0)
  match b with
  | none => ⟨x.1, str g, none, x.2, 0⟩
  | some b => let y := numbers.getD b ([], 0); ⟨x.1, str g, some y.1, x.2, y.2⟩

/-- The ARPA file of the data of C28's example. -/
def sections : List (List (Spec.ArpaLine ℚ) × Nat) :=
  [([line 0 "a" (some 2), line 1 "b" (some 2), line 1 "c" (some 2)], 1),
   ([line 3 "b a" (some 5), line 3 "c a" (some 5), line 3 "a b" (some 5), line 3 "b c" (some 5)], 1),
   ([line 4 "a b a" none, line 4 "b c a" none, line 4 "c a b" none, line 4 "a b c" none], 1)]

theorem lines_good (s : List (Spec.ArpaLine ℚ) × Nat) (hs : s ∈ sections) (l : Spec.ArpaLine ℚ) (hl : l ∈ s.1) : l.Good strtod := by
  simp only [sections, List.mem_cons, List.not_mem_nil, or_false] at hs
  rcases hs with rfl | rfl | rfl <;> simp only [List.mem_cons, List.not_mem_nil, or_false] at hl
  · rcases hl with rfl | rfl | rfl <;> exact ⟨by decide, by decide, fun rest => rfl, by intro t ht; cases ht; rfl⟩
  · rcases hl with rfl | rfl | rfl | rfl <;> exact ⟨by decide, by decide, fun rest => rfl, by intro t ht; cases ht; rfl⟩
  · rcases hl with rfl | rfl | rfl | rfl <;> exact ⟨by decide, by decide, fun rest => rfl, by intro t ht; cases ht⟩

theorem good : Spec.GoodArpa strtod sections [nl] where
  nonempty := by simp [sections]
  counts := by intro s hs; simp [sections] at hs; rcases hs with rfl | rfl | rfl <;> simp
  lines := lines_good
  last := by intro s hs; simp [sections] at hs; subst hs; rfl
  tail := .inr ⟨[], rfl⟩

theorem lists : Spec.ArpaLists sections MphProbExample.data := by
  unfold Spec.ArpaLists
  decide +kernel

/-- The hypotheses of C44 are met by this ARPA file, for the hash model and for the trie. -/
example := C44_mph_prob_arpa_to_scores 0 0 good fbQ sortQ_ok (-1000) (-100) (-100) 0 lists MphProbExample.data_input

example := C44_trie_prob_arpa_to_scores 0 0 good fbQ sortQ_ok (-1000) (-100) (-100) lists (by
    intro f hf r hr w hw
    obtain ⟨h1, h2⟩ := MphProbExample.data_input.bytes.words f hf r hr w hw
    exact ⟨h2, fun h => by have := h1 _ h; simp at this⟩)
  MphProbExample.data_trie MphProbExample.data_input.quant (by decide) MphProbExample.data_input.floats
  (TextExample.built3 (keys := [MphProbExample.w 0, MphProbExample.w 1, MphProbExample.w 2]) rfl (by decide)) MphProbExample.data_hashes
  (junk := fun _ => [0#64]) (by simp)

end FilesExample

end Tongrams
