import Verif.EndToEnd
import Verif.PefProb
import Verif.Header

/-!
# C61: the objects of the Python module (python/tongrams.cpp)

`tongrams.CountModel(file)` and `tongrams.ProbModel(file)` load a binary file into an object, whose methods are then called in any order.  The methods themselves
are in `ScoreText.lean` (C47).  Not modelled: reference counts and the interpreter, and what is printed.
-/

set_option linter.unusedSectionVars false

namespace Tongrams

/-- An object of the module (tongrams.cpp:12-18): a pointer, null in an object that `tp_new` has just made (146, 154). -/
structure PyObject (M : Type) where
  model : Option M

/-- A call on an object: the constructor (`init none`: its argument is not a string; `init (some none)`: no file of that name can be opened) or a method
(`call none`: its arguments have the wrong types). -/
inductive PyCall (Q : Type) where
  | init (arg : Option (Option (List Byte)))
  | call (arg : Option Q)

/-- `load_from_binary` (tongrams.cpp:31-53): a bad argument leaves the object as it was (the function returns 0, as in case of success); the exception of
`get_model_type` for a file that cannot be opened leaves a function called from C, which ends the process (`.error`).  The type read from the header is printed. -/
def PyObject.init {M : Type} (load : Rd M) (o : PyObject M) : Option (Option (List Byte)) → Res (PyObject M)
  | none => some (.ok o)
  | some none => some (.error ())
  | some (some file) => (file.head?.bind BinaryHeader.parse).bind fun _ => (loadFile load file).map fun p => .ok ⟨some p.1⟩

/-- A method (tongrams.cpp:65-117): with arguments of the wrong types it raises an exception (`some none`); otherwise it uses the model, which is undefined if
there is none. -/
def PyObject.call {M Q R : Type} (method : M → Q → Option R) (o : PyObject M) : Option Q → Option (Option R)
  | none => some none
  | some q => o.model.bind fun m => (method m q).map some

/-- A sequence of calls on one object; what the methods return. -/
def pyRun {M Q R : Type} (load : Rd M) (method : M → Q → Option R) : List (PyCall Q) → PyObject M → Res (List (Option R))
  | [], _ => some (.ok [])
  | .init a :: cs, o => Res.bind (o.init load a) fun o => pyRun load method cs o
  | .call q :: cs, o => Res.bind (Res.lift (o.call method q)) fun r => Res.bind (pyRun load method cs o) fun rs => some (.ok (r :: rs))

/-- The methods of `ProbModel` (tongrams.cpp:125-133): a sentence, given by the memory from its first byte on and the size passed; the bytes of a corpus. -/
inductive PyScore where
  | sentence (m : Mem) (size : Nat)
  | corpus (m : Mem)

/-- `ProbModel.score_sentence` and `ProbModel.score_corpus` (tongrams.cpp:77-117). -/
def TrieProb.pyMethod {F : Type} [FloatArith F] (fb : FloatBits F) (d : Nat) (one : F) (t : TrieProb (List Byte) F) : PyScore → Option (F × Nat)
  | .sentence m size => (t.python.scorer fb).pyScoreSentence (slice m) d one m size
  | .corpus m => (t.python.scorer fb).pyScoreCorpus (slice m) d one m

/-! ## Specification -/

/-- Specification: calls on an object that holds the model of `file`, and their results: the constructor may be called again with the same file or with a bad
argument; a method returns an answer `P` allows, or raises an exception if its arguments have the wrong types. -/
inductive Spec.PySession {Q R : Type} (file : List Byte) (P : Q → R → Prop) : List (PyCall Q) → List (Option R) → Prop
  | nil : PySession file P [] []
  | again {cs rs} : PySession file P cs rs → PySession file P (.init (some (some file)) :: cs) rs
  | badFile {cs rs} : PySession file P cs rs → PySession file P (.init none :: cs) rs
  | badArg {cs rs} : PySession file P cs rs → PySession file P (.call none :: cs) (none :: rs)
  | call {q r cs rs} : P q r → PySession file P cs rs → PySession file P (.call (some q) :: cs) (some r :: rs)

/-- Specification: the number `lookup(q)` returns: the count of a listed n-gram; 0 for an n-gram of at most `order` words that is not listed, if its unknown
words do not collide with the vocabulary and each of its listed proper prefixes has a listed extension. -/
def Spec.PyCount (hv : Mphf (List Byte) 64) (U : List (List Byte)) (files : List (List (List (List Byte) × Nat))) (q : List Byte) (v : Nat) : Prop :=
  ∃ words : List (List Byte), q = joinSp words ∧
    ((∃ f ∈ files, (words, v) ∈ f) ∨
      v = 0 ∧ words ≠ [] ∧ words.length ≤ files.length ∧ (∀ w ∈ words, w ≠ [] ∧ sp ∉ w) ∧ ¬ Spec.Stored files words ∧
        (∀ w ∈ words, w ∉ U → hv.lookup w ≠ some U.length ∧ ∀ u ∈ U, hv.lookup u = hv.lookup w → Mphf.mix (hv.hasher w) ≠ Mphf.mix (hv.hasher u)) ∧
        ∀ j, 1 ≤ j → j < words.length → Spec.Stored files (words.take j) → ∃ x, Spec.Stored files (words.take j ++ [x]))

/-- Specification: the sum and the number of words that the methods of `ProbModel` return, for sentences and corpora of recognised words. -/
def Spec.PyScores {F : Type} [FloatArith F] (hv : Mphf (List Byte) 64) (U : List (List Byte)) (A : Spec.Arpa (List Byte) F) : PyScore → F × Nat → Prop
  | .sentence m size, r => ∃ (sentence : List (List Byte)) (after : List Byte), m = joinSp sentence ++ after ∧ size = (joinSp sentence).length ∧
      (∀ w ∈ sentence, (Spec.IsWord w ∧ w ≠ []) ∧ Spec.Recognised hv U w) ∧
      r = (((A.wordScores sentence).map (·.1)).foldl (· + ·) 0, sentence.length)
  | .corpus m, r => ∃ text : List (List (List Byte)), m = textOf text ∧ (∀ l ∈ text, l ≠ [] ∧ ∀ w ∈ l, Spec.IsWord w ∧ Spec.Recognised hv U w) ∧
      r = ((text.map fun l => ((A.wordScores l).map (·.1)).foldl (· + ·) 0).foldl (· + ·) 0, (text.map List.length).sum)

/-! ## Proofs -/

theorem PyObject.init_ok {M : Type} {load : Rd M} {header : Byte} {body : List Byte} {m : M} {n : Nat} (hp : (BinaryHeader.parse header).isSome)
    (hl : loadFile load (saveFile header body) = some (m, n)) (o : PyObject M) : o.init load (some (some (saveFile header body))) = some (.ok ⟨some m⟩) := by
  obtain ⟨name, hn⟩ := Option.isSome_iff_exists.1 hp
  have hh : (saveFile header body).head? = some header := by
    show (putWord 1 header ++ body).head? = _
    have : putWord 1 header = [header] := by
      simp [putWord, putU]
    rw [this]; rfl
  simp only [PyObject.init, hh, Option.bind_some, hn, hl, Option.map_some]

theorem pyRun_session {M Q R : Type} {load : Rd M} {method : M → Q → Option R} {header : Byte} {body : List Byte} {m : M} {n : Nat} {P : Q → R → Prop}
    (hp : (BinaryHeader.parse header).isSome) (hl : loadFile load (saveFile header body) = some (m, n)) (hP : ∀ q r, P q r → method m q = some r)
    {cs : List (PyCall Q)} {rs : List (Option R)} (h : Spec.PySession (saveFile header body) P cs rs) : pyRun load method cs ⟨some m⟩ = some (.ok rs) := by
  induction h with
  | nil => rfl
  | again _ ih => simp only [pyRun, PyObject.init_ok hp hl, Res.bind_ok, ih]
  | badFile _ ih => simp only [pyRun, PyObject.init, Res.bind_ok, ih]
  | badArg _ ih => simp only [pyRun, PyObject.call, Res.lift_some, Res.bind_ok, ih]
  | call hq _ ih => simp only [pyRun, PyObject.call, Option.bind_some, hP _ _ hq, Option.map_some, Res.lift_some, Res.bind_ok, ih]

theorem pyRun_new {M Q R : Type} {load : Rd M} {method : M → Q → Option R} {header : Byte} {body : List Byte} {m : M} {n : Nat} {P : Q → R → Prop}
    (hp : (BinaryHeader.parse header).isSome) (hl : loadFile load (saveFile header body) = some (m, n)) (hP : ∀ q r, P q r → method m q = some r)
    {cs : List (PyCall Q)} {rs : List (Option R)} (h : Spec.PySession (saveFile header body) P cs rs) (o : PyObject M) :
    pyRun load method (.init (some (some (saveFile header body))) :: cs) o = some (.ok rs) := by
  simp only [pyRun, PyObject.init_ok hp hl, Res.bind_ok]
  exact pyRun_session hp hl hP h

theorem parse_of_choice {a : TrieArgs} {header : Byte} {t : Option ModelT} (h : Spec.ValidTrieArgs a) (e : buildTrieChoice a = some (.ok (header, t))) :
    (BinaryHeader.parse header).isSome := by
  obtain ⟨header', e1, e2, -⟩ := C35_trie_header a h
  rw [e1] at e
  simp only [Option.some.injEq, Except.ok.injEq, Prod.mk.injEq] at e
  obtain ⟨rfl, -⟩ := e
  unfold loadChoice at e2
  cases hb : BinaryHeader.parse header' with
  | none => rw [hb] at e2; cases e2
  | some _ => rfl

/-! ## Properties -/

/-- **C61** (`CountModel`).  Build a count trie without remapping and with IC ranks from the text of the count files, save it with the header `build_trie` writes,
and make a Python object of the file: any sequence of calls on the object gives the counts of the listed n-grams and 0 for the others. -/
theorem C61_count_object {L : SortLib} (hL : L.Valid) {U : List (List Byte)} {files : List (List (List (List Byte) × Nat))}
    (h : Spec.CountFiles U files 0) (hw : ∀ f ∈ files, f ≠ [] ∧ ∀ r ∈ f, ∀ w ∈ r.1, Spec.FileWord w)
    {hv : Mphf (List Byte) 64} (hb : hv.BuiltFrom U) {hr : Nat → Mphf Nat 64} (hh : Spec.RangeHashes hr files)
    {c : Emphf (List Byte) 64} (hc : Spec.EmphfReads c hv) {c' : Emphf Nat 64} (hc' : ∀ k, Spec.EmphfReads c' (hr k)) {junk : UTable Nat 64}
    (hju : junk.Fits c') {j : Junk (GramsData.fastEF hr c' junk) CountRanks.ic.data} (hj1 : FastEF.Fits c' j.grams) (hj2 : CountRanks.ic.data.fits j.ranks)
    (hj3 : j.ptrs.Fits) {a : TrieArgs} (ha : Spec.ValidTrieArgs a) {header : Byte} {T : Option ModelT} (hch : buildTrieChoice a = some (.ok (header, T))) :
    ∃ s : TrieCountStore (List Byte) (GramsData.fastEF hr c' junk) CountRanks.ic.data,
      TrieCountStore.buildFiles L hv _ _ 0 (files.map Spec.gramsText) = some (.ok s) ∧
      ∀ file, file = saveFile header (s.save c j) → ∀ (mem : List W) calls answers, Spec.PySession file (Spec.PyCount hv U files) calls answers →
        pyRun (TrieCountStore.load (GramsData.fastEF hr c' junk) CountRanks.ic.data c) (fun s q => (s.toModel mem).pyLookup q)
          (.init (some (some file)) :: calls) ⟨none⟩ = some (.ok answers) := by
  obtain ⟨s, s', e1, e2, e3⟩ := C50_count_trie hL h hw hb hh .ic (by intro h; cases h) hc hc' hju hj1 hj2 hj3 header
  refine ⟨s, e1, ?_⟩
  rintro file rfl mem calls answers hs
  refine pyRun_new (parse_of_choice ha hch) e2 ?_ hs _
  rintro q v ⟨words, rfl, ⟨f, hf, hm⟩ | ⟨rfl, h1, h2, h3, h4, h5, h6⟩⟩
  · exact (e3 mem f hf words v hm).2 rfl (.inl rfl)
  · obtain ⟨t, f1, f2⟩ := C25_absent_gram_not_found hL h hb hh .ic (by intro h; cases h)
    obtain ⟨s2, s2', g1, g2, g3, -⟩ := C36_count_trie_through_a_file hL h hb hh .ic (by intro h; cases h) hc hc' hju hj1 hj2 hj3 header
    rw [TrieCountStore.buildFiles_eq L h hw, g1, Option.some_inj, Except.ok.injEq] at e1
    subst e1
    rw [e2, Option.some_inj, Prod.mk.injEq] at g2
    obtain ⟨rfl, -⟩ := g2
    have hk := TrieCountStore.build_impl (G := GramsData.fastEF hr c' junk) (R := CountRanks.ic.data) L hv mem 0 files
    rw [g1, GramsData.fastEF_impl, CountRanks.data_impl, f1] at hk
    have ht : s2.toModel mem = t := by simpa [Res.map, Res.bind] using hk.symm
    have hro : (s'.toModel mem).ro = 0 := by
      obtain ⟨s3, k1, k2, -⟩ := TrieCountStore.load_le (Codec.std hr c' junk CountRanks.ic.data_std)
        (TrieCountStore.build_fits hL h hb hh .ic hc hc' hju hj1 hj2 hj3 g1)
      have k3 := C36_file k1 header
      rw [e2] at k3
      have k4 := congrArg Prod.fst (Option.some.inj k3)
      simp only at k4
      have k5 := TrieCount.build_ro f1
      rw [← ht] at k5
      show s'.ro = 0
      rw [k4, k2]; exact k5
    have := g3 mem words NF (by rw [ht]; exact f2 words h1 h2 h4 h5 h6 (by simp))
    unfold TrieCount.pyLookup TrieCount.lookupString
    rw [TrieCount.python_eq hro, queryWords_ok h1 h3, Option.bind_some, this, Option.map_some, if_pos rfl]

/-- **C61** (`ProbModel`).  The same for a backoff trie built without remapping from the text of an ARPA file: any sequence of `score_sentence` and
`score_corpus` calls returns the sums of word scores under the (quantised) ARPA model, independently of the calls before. -/
theorem C61_prob_object {F : Type} [FloatArith F] {strtod : List Byte → F × Nat} (lead gap : Nat) {sections : List (List (Spec.ArpaLine F) × Nat)} {tail : List Byte}
    (hg : Spec.GoodArpa strtod sections tail) (fb : FloatBits F) {sort : List F → List F} (hsort : ∀ l, (sort l).Perm l ∧ (sort l).Pairwise (· ≤ ·))
    (negInf default unk : F) {U : List (List Byte)} {data : List (List (List (List Byte) × F × F))} {pb bb : Nat}
    (hd : Spec.ArpaLists sections data) (hwords : ∀ f ∈ data, ∀ r ∈ f, ∀ w ∈ r.1, w ≠ [] ∧ sp ∉ w)
    (h : Spec.ProbFiles U data 0) (hq : Spec.Quantisable data pb bb) (hbits : pb + bb ≤ 58)
    (hfb : ∀ f0, data[0]? = some f0 → ∀ r ∈ f0, fb.dec (fb.enc r.2.1) = r.2.1 ∧ fb.dec (fb.enc r.2.2) = r.2.2)
    (hcb : ∀ ps bs, Quant.codebooks sort negInf pb bb data = some (.ok (ps, bs)) → ∀ l ∈ ps ++ bs, ∀ x ∈ l, Spec.IsFloat fb x)
    (hunk : Spec.IsFloat fb (Spec.unkProb Spec.unkText default (data.getD 0 []) unk))
    {hv : Mphf (List Byte) 64} (hb : hv.BuiltFrom U) {hr : Nat → Mphf Nat 64} (hh : Spec.RangeHashes hr (TrieProb.asCounts data))
    {c : Emphf (List Byte) 64} (hc : Spec.EmphfReads c hv) {c' : Emphf Nat 64} (hc' : ∀ k, Spec.EmphfReads c' (hr k)) {junk : UTable Nat 64}
    (hju : junk.Fits c') {j : Junk (GramsData.fastEF hr c' junk) RanksData.cv} (hj1 : FastEF.Fits c' j.grams) (hj2 : CompactVector.Fits j.ranks)
    (hj3 : j.ptrs.Fits) {a : TrieArgs} (ha : Spec.ValidTrieArgs a) {header : Byte} {T : Option ModelT} (hch : buildTrieChoice a = some (.ok (header, T))) :
    ∃ s : TrieProbStore (List Byte) F (GramsData.fastEF hr c' junk) RanksData.cv,
      TrieProbStore.buildArpa strtod fb sort negInf default hv _ _ 0 unk pb bb sections.length (Spec.arpaText lead gap sections tail) = some (.ok s) ∧
      ∀ file, file = saveFile header (s.save fb c j bb) → ∀ mem : List W, mem ≠ [] → ∃ qp qb, Spec.Quantised data pb bb qp qb ∧
      ∀ A, A = Spec.Arpa.ofData data (Spec.unkProb Spec.unkText default (data.getD 0 []) unk) qp qb →
      ∀ (d : Nat) (one : F) calls answers, Spec.PySession file (Spec.PyScores hv U A) calls answers →
        pyRun (TrieProbStore.load (GramsData.fastEF hr c' junk) RanksData.cv fb c) (fun s q => (s.toModel mem).pyMethod fb d one q)
          (.init (some (some file)) :: calls) ⟨none⟩ = some (.ok answers) := by
  obtain ⟨s, s', e1, e2, e3⟩ := C50_backoff_trie lead gap hg fb hsort negInf default unk hd hwords h hq hbits hfb hcb hunk hb hh hc hc' hju hj1 hj2 hj3 header
  refine ⟨s, e1, ?_⟩
  rintro file rfl mem hm
  obtain ⟨qp, qb, f1, f2⟩ := e3 mem hm
  refine ⟨qp, qb, f1, ?_⟩
  rintro A hA d one calls answers hs
  obtain ⟨g1, g2⟩ := f2 A hA
  refine pyRun_new (parse_of_choice ha hch) e2 ?_ hs _
  rintro (⟨m, size⟩ | m) r hr
  · obtain ⟨sentence, after, rfl, rfl, hV, rfl⟩ := hr
    exact g2 rfl sentence after d one hV
  · obtain ⟨text, rfl, hV, rfl⟩ := hr
    exact (g1 text d one hV).2 rfl

/-- C61, defect: a method of an object whose constructor was not given a string uses a null pointer. -/
theorem C61_bad_constructor_defect {M Q R : Type} (load : Rd M) (method : M → Q → Option R) (q : Q) (cs : List (PyCall Q)) :
    pyRun load method (.init none :: .call (some q) :: cs) ⟨none⟩ = none := rfl

/-- C61, defect: a file that cannot be opened ends the process. -/
theorem C61_missing_file_defect {M Q R : Type} (load : Rd M) (method : M → Q → Option R) (cs : List (PyCall Q)) (o : PyObject M) :
    pyRun load method (.init (some none) :: cs) o = some (.error ()) := rfl

/-- C61, defect: the type of the model in the header is not compared with the class of the object: whichever valid header byte the file begins with, the rest is
read in the same way (so a hash model, or a trie with other ranks, is read as an IC trie). -/
theorem C61_type_not_checked_defect {M : Type} (load : Rd M) (o : PyObject M) {h h' : Byte} (hp : (BinaryHeader.parse h).isSome) (hp' : (BinaryHeader.parse h').isSome)
    (body : List Byte) : o.init load (some (some (h :: body))) = o.init load (some (some (h' :: body))) := by
  obtain ⟨n, hn⟩ := Option.isSome_iff_exists.1 hp
  obtain ⟨n', hn'⟩ := Option.isSome_iff_exists.1 hp'
  have hl : loadFile load (h :: body) = loadFile load (h' :: body) := by
    unfold loadFile Rd.bind getWord Rd.bind getU Rd.ret
    simp [getU, Rd.ret]
  simp only [PyObject.init, List.head?_cons, Option.bind_some, hn, hn', hl]

/-! ## Memory -/

/-- The models of the process that are allocated (by number; numbers are not reused), and the pointer of one object. -/
structure PyHeap where
  next : Nat
  live : List Nat
  model : Option Nat

/-- The allocations of `load_from_binary` (tongrams.cpp:36) for an argument that is a string: the old pointer is overwritten. -/
def PyHeap.init (h : PyHeap) : PyHeap := ⟨h.next + 1, h.next :: h.live, some h.next⟩

/-- `PyCountLM_dealloc`, `PyProbLM_dealloc` (tongrams.cpp:55-63): `delete` of a null pointer does nothing; of a pointer to a model that is not allocated it is
undefined. -/
def PyHeap.dealloc (h : PyHeap) : Option PyHeap :=
  match h.model with
  | none => some h
  | some p => if p ∈ h.live then some ⟨h.next, h.live.erase p, none⟩ else none

/-- **C61** (memory).  An object on which the constructor is called once is freed completely: what is allocated afterwards is what was before.  So is an object whose
constructor was not called, or was refused because of its arguments: nothing is freed and nothing is lost. -/
theorem C61_object_freed {next : Nat} {live : List Nat} : ((⟨next, live, none⟩ : PyHeap).init.dealloc) = some ⟨next + 1, live, none⟩ ∧
    (⟨next, live, none⟩ : PyHeap).dealloc = some ⟨next, live, none⟩ := by
  simp [PyHeap.init, PyHeap.dealloc]

/-- C61: however many times the constructor is called on the object, `dealloc` frees an allocated model; defect: the models of all calls but the last are lost. -/
theorem C61_constructor_again_leaks_defect {next : Nat} {live : List Nat} (n : Nat) :
    ((PyHeap.init^[n + 1] ⟨next, live, none⟩).dealloc) = some ⟨next + n + 1, (List.range n).reverse.map (next + ·) ++ live, none⟩ := by
  have key : ∀ n, PyHeap.init^[n + 1] ⟨next, live, none⟩ = ⟨next + n + 1, (List.range (n + 1)).reverse.map (next + ·) ++ live, some (next + n)⟩ := by
    intro n
    induction n with
    | zero => simp [PyHeap.init]
    | succ n ih =>
      rw [Function.iterate_succ_apply', ih]
      simp [PyHeap.init, List.range_succ, Nat.add_assoc]
  rw [key n]
  simp [PyHeap.dealloc, List.range_succ]

/-! ## A concrete case -/

namespace EndExample
open FilesExample TrieProbExample SaveExample

def args0 : TrieArgs := ⟨"ef_trie", "count", none, some "IC"⟩
theorem args0_ok : Spec.ValidTrieArgs args0 := ⟨by simp [args0], by simp [args0], by simp [args0], by simp [args0]⟩

/-- A session on the count files of C44's example: `a c` is listed twice, `b a` is not listed, then a call without a string, and the constructor again. -/
example : ∃ s : TrieCountStore (List Byte) (GramsData.fastEF (fun _ => FastEF.exMphf) codec junkTable) CountRanks.ic.data, ∃ file : List Byte,
    TrieCountStore.buildFiles exLib (TextExample.mphf3 U) _ _ 0 (MphCountExample.files.map Spec.gramsText) = some (.ok s) ∧
    pyRun (TrieCountStore.load (GramsData.fastEF (fun _ => FastEF.exMphf) codec junkTable) CountRanks.ic.data (codecOf [(TextExample.mphf3 U).hasher]))
      (fun s q => (s.toModel []).pyLookup q)
      [.init (some (some file)), .call (some (str "a c")), .call (some (str "b a")), .call none, .init (some (some file)), .call (some (str "a c"))] ⟨none⟩ =
      some (.ok [some 2, some 0, none, some 2]) := by
  obtain ⟨header, hch, -⟩ := C35_trie_header args0 args0_ok
  obtain ⟨s, e1, e2⟩ := C61_count_object exLib_valid files_trie files_words
    (TextExample.built3 (keys := U) rfl (by decide)) files_hashes voc_read ranges_read junk_fits
    (j := SaveExample.junk CountRanks.ic.data icJunk _) (fef_fits [1, 2] (by decide) (by decide))
    (by show ICSeq.Fits _; simp [SaveExample.junk, icJunk, ICSeq.Fits, BitVector.Fits, DArray.Fits, DArray.empty]) (junk_ptrs _ _ _) args0_ok hch
  refine ⟨s, _, e1, e2 _ rfl [] _ _ (.call ?_ (.call ?_ (.badArg (.again (.call ?_ .nil)))))⟩
  · exact ⟨[MphCountExample.w 0, MphCountExample.w 2], by decide +kernel, .inl ⟨_, List.mem_of_getElem? (i := 1) rfl, by simp⟩⟩
  · refine ⟨[MphCountExample.w 1, MphCountExample.w 0], by decide +kernel, .inr ⟨rfl, by simp, by simp [MphCountExample.files], ?_, ?_, ?_, ?_⟩⟩
    · intro w hw; simp at hw; rcases hw with rfl | rfl <;> exact ⟨by decide, by decide⟩
    · rintro ⟨f, hf, c, hc⟩
      simp [MphCountExample.files] at hf
      rcases hf with rfl | rfl <;> simp [MphCountExample.w] at hc
    · intro w hw hn; simp [U] at hw hn; rcases hw with rfl | rfl <;> simp at hn
    · intro j h1 h2 _
      simp at h2
      obtain rfl : j = 1 := by omega
      exact ⟨MphCountExample.w 2, _, List.mem_of_getElem? (i := 1) rfl, 3, by simp⟩
  · exact ⟨[MphCountExample.w 0, MphCountExample.w 2], by decide +kernel, .inl ⟨_, List.mem_of_getElem? (i := 1) rfl, by simp⟩⟩

example := C61_prob_object 0 0 good fb8 sortQ_ok (-1000) (-100) (-100) lists data_words
    MphProbExample.data_trie.unmapped MphProbExample.data_input.quant (by decide) input8.floats codes8 unk8
    (TextExample.built3 (keys := U) rfl (by decide)) MphProbExample.data_hashes voc_read ranges_read junk_fits
    (j := SaveExample.junk RanksData.cv cvJunk _) (fef_fits [1, 2] (by decide) (by decide))
    ⟨by decide, by decide, by decide⟩ (junk_ptrs _ _ _) (a := ⟨"ef_trie", "prob_backoff", none, none⟩)

end EndExample

open TrieProbExample in
/-- C61, defect: Python's `ProbModel` loads a trie built with `--remapping 1`, but queries it without remapping: the listed trigram "1 2 0" has log-probability
-1/4, yet its last word gets the backoff -1/8 of "1 2" plus the -1/2 of the bigram "2 0". -/
theorem C61_remapped_scores_defect :
    Spec.ProbFiles [0, 1, 2] (data (-1/8)) 1 ∧ ([1, 2, 0], -1/4, 0) ∈ (data (-1/8)).getD 2 [] ∧
    (Option.bind (TrieProb.build fbQ (fun l => l.foldr PefProbExample.insQ []) (-1000) 9 (-100) MphExample.mphf (GramsImpl.fastEF fun _ => FastEF.exMphf)
      (RanksImpl.cv fun _ => [0#64]) 1 (-100) 2 2 (data (-1/8))) fun
      | .ok t => some ((t.scorer fbQ).scoreSentence 7 1 [1, 2, 0], (t.python.scorer fbQ).scoreSentence 7 1 [1, 2, 0])
      | .error () => none) = some (some [(-3, false), (-1/2, false), (-1/4, false)], some [(-3, false), (-1/2, false), (-5/8, false)]) :=
  ⟨data_ok _ 1 (by omega), by simp [data], by decide +kernel⟩

end Tongrams
