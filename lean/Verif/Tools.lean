import Verif.PefEndToEnd
import Verif.Header

/-!
# The command-line programs

Property C69.  `build_trie`, `build_hash`, `test_count_model`, `lookup_perf_test` and `score` as functions of their arguments and of the bytes of the
files they read, up to the bytes of the file they write or the numbers they print.  The class is chosen twice from the same byte: by the builder,
from the arguments, and by the reader, from the file (Header.lean); everything between is in the models of the classes.
-/

set_option linter.unusedSectionVars false

namespace Tongrams
open CheckModel

/-! ## The programs -/

/-- What the programs take from outside the repository's code, or from memory that was not written: the sort of the library, the hash functions that
emphf finds for the keys and their representations in a file, `strtod`, the representation of a `float`, and what members that were not built contain. -/
structure ToolEnv (F : Type) where
  L : SortLib
  /-- the hash function of the vocabulary, and in a file -/
  hv : Mphf (List Byte) 64
  c : Emphf (List Byte) 64
  /-- the hash functions of the ranges of each order of a `fast_ef_sequence`, and in a file -/
  hr : Nat → Mphf Nat 64
  c' : Emphf Nat 64
  /-- the hash functions of the hash models -/
  hs32 : Nat → Mphf (List Byte) 32
  c32 : Emphf (List Byte) 32
  hs64 : Nat → Mphf (List Byte) 64
  c64 : Emphf (List Byte) 64
  /-- bytes of the pool of the hash models, and those beyond -/
  mem : Nat
  extra : Nat
  /-- members that were not built -/
  ju : UTable Nat 64
  jg : FastEF
  ji : ICSeq
  je : EF
  jp : EF
  jr : CompactVector
  /-- words after the arrays, in the memory of the builder and in that of the reader -/
  junkU : Nat → List W
  junkD : Nat → List W
  junkU' : Nat → List W
  junkD' : Nat → List W
  junk : Nat → List W
  junk' : Nat → List W
  past : List W
  /-- the order of evaluation in `prefix_summed_sequence` -/
  swap : Bool
  strtod : List Byte → F × Nat
  fb : FloatBits F
  sort : List F → List F
  negInf : F
  /-- `global::default_unk_prob` (util.hpp:63) -/
  defaultUnk : F
  /-- what a new state contains -/
  d : Nat
  one : F

/-- `check_order` (util.hpp:292-301): the parameter is a `uint8_t`. -/
def checkOrder (order : Nat) : Res Unit := if order % 256 < 2 ∨ 8 < order % 256 then some (.error ()) else some (.ok ())

/-- `check_unk_logprob` (util.hpp:311-315), if the option was given. -/
def checkUnk {F : Type} [FloatArith F] (unk : Option F) : Res Unit :=
  match unk with
  | some u => if 0 ≤ u then some (.error ()) else some (.ok ())
  | none => some (.ok ())

/-- The files of the folder with the n-grams of orders 1 to `order` (trie_count_lm.hpp:29-34, mph_count_lm.hpp:23-28; `check_filename` throws for one
that is not there).  Simplified: all are looked for before the first is read. -/
def gramsFiles (folder : List (List Byte)) (order : Nat) : Res (List (List Byte)) :=
  if folder.length < order then some (.error ()) else some (.ok (folder.take order))

/-- The remapping order that a builder applies: `Mapper::context_remapping` is false for `identity_mapper` (mappers.hpp, trie_count_lm.hpp:217-222,
trie_prob_lm.hpp:264-269). -/
def MapperT.applied (m : MapperT) (ro : Nat) : Nat := match m with | .identity => 0 | .sortedArray => ro

/-- The ranks of a count trie (lm_types.hpp:40-79). -/
def RanksT.ranks (swap : Bool) : RanksT → PefRanks
  | .IC => .ic
  | .PSEF => .psef
  | .PSPEF => .pspef swap

section
variable {F : Type} [FloatArith F]

namespace ToolEnv

/-- Grams of an `ef` trie, in the memory of a process. -/
abbrev efGrams (E : ToolEnv F) : GramsData := GramsData.fastEF E.hr E.c' E.ju

/-- `T::builder builder(input_dir, order, remapping_order); T model; builder.build(model)` or `T model(input_dir, order)`, and `model.save`
(src/build_trie.cpp:143-158, src/build_hash.cpp:107-119) for a count model: the bytes after the header.  `none`: not one of these classes. -/
def countBody (E : ToolEnv F) (ro : Nat) (files : List (List Byte)) : ModelT → Res (List Byte)
  | .trieCount m r .fastEF =>
    Res.bind (StCount.buildFiles E.L E.hv E.efGrams.st ((r.ranks E.swap).stored E.junkU E.junkD) (m.applied ro) files) fun t =>
    some (.ok (StCount.save (GramsFile.data E.efGrams E.jg) ((r.ranks E.swap).file E.junkU E.junkD E.ji E.je) E.jp E.c { t with ro := ro }))
  | .trieCount m r .uniformPEF =>
    Res.bind (StCount.buildFiles E.L E.hv (GramsSt.pef E.junkU E.junkD) ((r.ranks E.swap).stored E.junkU E.junkD) (m.applied ro) files) fun t =>
    some (.ok (StCount.save (GramsFile.pef E.junkU E.junkD) ((r.ranks E.swap).file E.junkU E.junkD E.ji E.je) E.jp E.c { t with ro := ro }))
  | .mphCount b =>
    if b = 32 then Res.bind (MphCount.buildFiles E.L E.mem E.extra E.hs32 files) fun m => some (.ok (m.save E.c32))
    else if b = 64 then Res.bind (MphCount.buildFiles E.L E.mem E.extra E.hs64 files) fun m => some (.ok (m.save E.c64))
    else none
  | _ => none

/-- The same for a model of probabilities and backoffs (src/build_trie.cpp:159-176, src/build_hash.cpp:120-138): `order` sections of the ARPA file are read. -/
def probBody (E : ToolEnv F) (ro order : Nat) (unk : F) (pb bb : Nat) (arpa : List Byte) : ModelT → Res (List Byte)
  | .trieProb m .fastEF =>
    Res.bind (TrieProbStore.buildArpa E.strtod E.fb E.sort E.negInf E.defaultUnk E.hv E.efGrams RanksData.cv (m.applied ro) unk pb bb order arpa) fun t =>
    some (.ok (TrieProbStore.save E.fb E.c ⟨E.jg, E.jr, E.jp⟩ bb { t with ro := ro }))
  | .trieProb m .uniformPEF =>
    Res.bind (StProb.buildArpa E.strtod E.fb E.sort E.negInf E.defaultUnk E.hv (GramsSt.pef E.junkU E.junkD) (RanksData.cv.st E.junk) (m.applied ro) unk
      pb bb order arpa) fun t =>
    some (.ok (StProb.save (GramsFile.pef E.junkU E.junkD) (RanksFile.data RanksData.cv E.junk E.jr) E.jp E.fb E.c bb { t with ro := ro }))
  | .mphProb b =>
    if b = 32 then Res.bind (MphProb.buildArpa E.strtod E.fb E.sort E.negInf E.defaultUnk unk E.mem E.extra E.hs32 pb bb order arpa) fun m =>
      some (.ok (m.save E.fb E.c32 bb))
    else if b = 64 then Res.bind (MphProb.buildArpa E.strtod E.fb E.sort E.negInf E.defaultUnk unk E.mem E.extra E.hs64 pb bb order arpa) fun m =>
      some (.ok (m.save E.fb E.c64 bb))
    else none
  | _ => none

end ToolEnv

/-- The command line of `build_trie` (src/build_trie.cpp:9-56). -/
structure TrieCommand (F : Type) where
  choice : TrieArgs
  order : Nat
  unk : Option F
  p : Option Nat
  b : Option Nat

/-- The command line of `build_hash` (src/build_hash.cpp:9-46). -/
structure HashCommand (F : Type) where
  choice : HashArgs
  order : Nat
  unk : Option F
  p : Option Nat
  b : Option Nat

/-- From the header and the class to the file: `util::save(header, model, output_filename)`, or `unknown_type` and no file (`none`).  The values are
counts from the folder, or those of the ARPA file; without `--arpa` the name is a null pointer.  src/build_trie.cpp:142-177, src/build_hash.cpp:106-139. -/
def ToolEnv.writeFile (E : ToolEnv F) (counts : Bool) (ro order : Nat) (unk : F) (pb bb : Nat) (folder : List (List Byte)) (arpa : Option (List Byte))
    (x : BitVec 8 × Option ModelT) : Res (Option (List Byte)) :=
  match x.2 with
  | none => some (.ok none)
  | some t =>
    if counts then
      Res.bind (gramsFiles folder order) fun files => Res.bind (E.countBody ro files t) fun body => some (.ok (some (saveFile x.1 body)))
    else Res.bind (Res.lift arpa) fun file => Res.bind (E.probBody ro order unk pb bb file t) fun body => some (.ok (some (saveFile x.1 body)))

/-- `build_trie` (src/build_trie.cpp:8-180): the bytes of the file written, if one is.  The order, the remapping order and the bits are passed to
parameters of 8 bits (trie_count_lm.hpp:13-19, trie_prob_lm.hpp:21-27; defaults: util.hpp:64-65). -/
def buildTrie (E : ToolEnv F) (a : TrieCommand F) (folder : List (List Byte)) (arpa : Option (List Byte)) : Res (Option (List Byte)) :=
  Res.bind (checkOrder a.order) fun _ => Res.bind (checkUnk a.unk) fun _ => Res.bind (buildTrieChoice a.choice) fun x =>
  E.writeFile (a.choice.value == "count") (a.choice.remapping.getD 0 % 256) (a.order % 256) (a.unk.getD E.defaultUnk) (a.p.getD 8 % 256) (a.b.getD 8 % 256)
    folder arpa x

/-- `build_hash` (src/build_hash.cpp:8-142). -/
def buildHash (E : ToolEnv F) (a : HashCommand F) (folder : List (List Byte)) (arpa : Option (List Byte)) : Res (Option (List Byte)) :=
  Res.bind (checkOrder a.order) fun _ => Res.bind (checkUnk a.unk) fun _ => Res.bind (buildHashChoice a.choice) fun x =>
  E.writeFile (a.choice.value == "count") 0 (a.order % 256) (a.unk.getD E.defaultUnk) (a.p.getD 8 % 256) (a.b.getD 8 % 256) folder arpa x

/-- `get_model_type` (util.hpp:428-441) and the `if`s on the name: `none` in the result for the message that the type is not supported. -/
def fileType (types : List String) (binary : List Byte) : Res (Option ModelT) :=
  Res.bind (Res.lift binary.head?) fun b => Res.lift (loadChoice types b)

/-- The loader of a class, with its mapper: `identity_mapper::map_query` does not look at the remapping order that was saved (mappers.hpp). -/
def StCount.loadAs {G : GramsSt} {R : RanksSt} (m : MapperT) (F : GramsFile G) (Fr : RanksFile R) (c : Emphf (List Byte) 64) : Rd (StCount (List Byte) G R) :=
  Rd.bind (StCount.load F Fr c) fun t => Rd.ret { t with ro := m.applied t.ro }

/-- See `StCount.loadAs`. -/
def StProb.loadAs {G : GramsSt} {R : RanksSt} (m : MapperT) (Fg : GramsFile G) (Fr : RanksFile R) (fb : FloatBits F) (c : Emphf (List Byte) 64) :
    Rd (StProb (List Byte) F G R) :=
  Rd.bind (StProb.load Fg Fr fb c) fun t => Rd.ret { t with ro := m.applied t.ro }

/-- See `StCount.loadAs`. -/
def TrieProbStore.loadAs {G : GramsData} {R : RanksData} (m : MapperT) (fb : FloatBits F) (c : Emphf (List Byte) 64) :
    Rd (TrieProbStore (List Byte) F G R) :=
  Rd.bind (TrieProbStore.load G R fb c) fun t => Rd.ret { t with ro := m.applied t.ro }

/-- The instance of a program for a count class (src/lookup_perf_test.cpp:78-89, test/test_count_model.cpp:44-62). -/
def ToolEnv.withCount (E : ToolEnv F) {α : Type} (k : (M : Type) → CountUse M → Rd M → Res α) : ModelT → Res α
  | .trieCount m r .fastEF => k _ StCount.use (StCount.loadAs m (GramsFile.data E.efGrams E.jg) ((r.ranks E.swap).file E.junkU' E.junkD' E.ji E.je) E.c)
  | .trieCount m r .uniformPEF =>
    k _ StCount.use (StCount.loadAs m (GramsFile.pef E.junkU' E.junkD') ((r.ranks E.swap).file E.junkU' E.junkD' E.ji E.je) E.c)
  | .mphCount b => if b = 32 then k _ MphCount.use (MphCount.load E.c32) else if b = 64 then k _ MphCount.use (MphCount.load E.c64) else none
  | _ => none

/-- `test_count_model binary_filename input_folder` (test/test_count_model.cpp:34-65); `none`: not supported with this type. -/
def testCountModelMain (E : ToolEnv F) (binary : List Byte) (folder : List (List Byte)) : Res (Option Report) :=
  Res.bind (fileType countTypes binary) fun
  | none => some (.ok none)
  | some t => Res.bind (E.withCount (fun _ u load => testCountModel u load binary folder) t) fun r => some (.ok (some r))

/-- `lookup_perf_test index_filename query_filename runs` (src/lookup_perf_test.cpp:62-97). -/
def lookupPerfTestMain (E : ToolEnv F) (binary : List Byte) (lines : List (List Byte)) (runs : Nat) : Res (Option Perf) :=
  if runs = 0 then some (.error ()) else
  Res.bind (fileType countTypes binary) fun
  | none => some (.ok none)
  | some t => Res.bind (E.withCount (fun _ u load => perfTest u load binary lines runs) t) fun r => some (.ok (some r))

/-- `score_corpus<T>` (src/score.cpp:10-84) for each class. -/
def ToolEnv.scoreAs (E : ToolEnv F) (binary text : List Byte) : ModelT → Option (Totals F)
  | .trieProb m .fastEF =>
    (loadFile (TrieProbStore.loadAs (G := E.efGrams) (R := RanksData.cv) m E.fb E.c) binary).bind fun p =>
      ((p.1.toModel E.past).scorer E.fb).scoreText (slice text) E.d E.one text
  | .trieProb m .uniformPEF =>
    (loadFile (StProb.loadAs m (GramsFile.pef E.junkU' E.junkD') (RanksFile.data RanksData.cv E.junk' E.jr) E.fb E.c) binary).bind fun p =>
      (p.1.scoreText E.fb E.d E.one text).map (·.1)
  | .mphProb b =>
    if b = 32 then (loadFile (MphProb.load E.fb E.c32) binary).bind fun p => (p.1.scorer E.fb text).scoreText id E.d E.one text
    else if b = 64 then (loadFile (MphProb.load E.fb E.c64) binary).bind fun p => (p.1.scorer E.fb text).scoreText id E.d E.one text
    else none
  | _ => none

/-- `score index_filename corpus_filename` (src/score.cpp:86-109). -/
def scoreMain (E : ToolEnv F) (binary text : List Byte) : Res (Option (Totals F)) :=
  Res.bind (fileType scoreTypes binary) fun
  | none => some (.ok none)
  | some t => Res.bind (Res.lift (E.scoreAs binary text t)) fun r => some (.ok (some r))

end

/-! ## Proofs -/

namespace Tools
variable {F : Type} [FloatArith F]

theorem checkOrder_ok {n : Nat} (h1 : 2 ≤ n) (h2 : n ≤ 8) : checkOrder n = some (.ok ()) := by
  unfold checkOrder; rw [Nat.mod_eq_of_lt (by omega), if_neg (by omega)]

theorem checkUnk_ok {unk : Option F} (h : ∀ u ∈ unk, u < 0) : checkUnk unk = some (.ok ()) := by
  unfold checkUnk
  cases unk with
  | none => rfl
  | some u => exact if_neg (not_le.2 (h u rfl))

theorem fileType_saved (types : List String) (header : Byte) (body : List Byte) :
    fileType types (saveFile header body) = Res.lift (loadChoice types header) := by
  unfold fileType saveFile putWord
  show Res.bind (Res.lift (some (BitVec.ofNat 8 header.toNat))) _ = _
  rw [Res.lift_some, Res.bind_ok, BitVec.ofNat_toNat, BitVec.setWidth_eq]

theorem head_saved (header : Byte) (body : List Byte) : (saveFile header body).head? = some header := by
  unfold saveFile putWord
  show some (BitVec.ofNat 8 header.toNat) = _
  rw [BitVec.ofNat_toNat, BitVec.setWidth_eq]

theorem loadFile_as {α : Type} (g : Rd α) (f : α → α) (file : List Byte) :
    loadFile (Rd.bind g fun t => Rd.ret (f t)) file = (loadFile g file).map fun p => (f p.1, p.2) := by
  unfold loadFile Rd.bind Rd.ret
  cases getWord 8 1 file with
  | none => rfl
  | some p =>
    simp only [Option.bind_some]
    cases g p.2 <;> rfl

theorem loadFile_saved {α : Type} {g : Rd α} {header : Byte} {body : List Byte} {t : α} {n : Nat}
    (h : loadFile g (saveFile header body) = some (t, n)) : ∃ s, g body = some (t, s) := by
  unfold loadFile saveFile Rd.bind at h
  rw [getWord_putWord (by omega) header body] at h
  simp only [Option.bind_some] at h
  obtain ⟨p, h1, h2⟩ := Option.map_eq_some_iff.1 h
  exact ⟨p.2, by rw [h1, ← (Prod.mk.inj h2).1]⟩

theorem rd_some {α β : Type} {g : Rd α} {f : α → Rd β} {s : List Byte} {r : β × List Byte} (h : Rd.bind g f s = some r) :
    ∃ a s', g s = some (a, s') ∧ f a s' = some r := by
  obtain ⟨p, h1, h2⟩ := Option.bind_eq_some_iff.1 h
  exact ⟨p.1, p.2, h1, h2⟩

theorem count_ro {G : GramsSt} {R : RanksSt} {Fg : GramsFile G} {Fr : RanksFile R} {c : Emphf (List Byte) 64} {o ro : Nat} (hr : ro < 256)
    {rest s : List Byte} {t : StCount (List Byte) G R}
    (h : StCount.load Fg Fr c (putU 1 o ++ (putU 1 ro ++ rest)) = some (t, s)) : t.ro = ro := by
  unfold StCount.load at h
  obtain ⟨o', s1, g1, h⟩ := rd_some h
  have e1 : s1 = putU 1 ro ++ rest := by
    have : getU 1 (putU 1 o ++ (putU 1 ro ++ rest)) = some ((BitVec.ofNat 8 o).toNat + 256 * 0, putU 1 ro ++ rest) := rfl
    rw [this] at g1
    exact (Prod.mk.inj (Option.some.inj g1)).2.symm
  subst e1
  obtain ⟨ro', s2, g2, h⟩ := rd_some h
  rw [getU1 hr] at g2
  obtain ⟨e, -⟩ := Prod.mk.inj (Option.some.inj g2)
  obtain ⟨_, _, -, h⟩ := rd_some h
  obtain ⟨_, _, -, h⟩ := rd_some h
  obtain ⟨_, _, -, h⟩ := rd_some h
  have := (Prod.mk.inj (Option.some.inj h)).1
  rw [← this]; exact e.symm

theorem prob_ro {G : GramsSt} {R : RanksSt} {Fg : GramsFile G} {Fr : RanksFile R} {fb : FloatBits F} {c : Emphf (List Byte) 64} {o ro : Nat}
    (hr : ro < 256) {rest s : List Byte} {t : StProb (List Byte) F G R}
    (h : StProb.load Fg Fr fb c (putU 1 o ++ (putU 1 ro ++ rest)) = some (t, s)) : t.ro = ro := by
  unfold StProb.load at h
  obtain ⟨o', s1, g1, h⟩ := rd_some h
  have e1 : s1 = putU 1 ro ++ rest := by
    have : getU 1 (putU 1 o ++ (putU 1 ro ++ rest)) = some ((BitVec.ofNat 8 o).toNat + 256 * 0, putU 1 ro ++ rest) := rfl
    rw [this] at g1
    exact (Prod.mk.inj (Option.some.inj g1)).2.symm
  subst e1
  obtain ⟨ro', s2, g2, h⟩ := rd_some h
  rw [getU1 hr] at g2
  obtain ⟨e, -⟩ := Prod.mk.inj (Option.some.inj g2)
  obtain ⟨_, _, -, h⟩ := rd_some h
  split at h
  · cases h
  obtain ⟨_, _, -, h⟩ := rd_some h
  obtain ⟨_, _, -, h⟩ := rd_some h
  obtain ⟨_, _, -, h⟩ := rd_some h
  obtain ⟨_, _, -, h⟩ := rd_some h
  have := (Prod.mk.inj (Option.some.inj h)).1
  rw [← this]; exact e.symm

theorem store_ro {G : GramsData} {R : RanksData} {fb : FloatBits F} {c : Emphf (List Byte) 64} {o ro : Nat}
    (hr : ro < 256) {rest s : List Byte} {t : TrieProbStore (List Byte) F G R}
    (h : TrieProbStore.load G R fb c (putU 1 o ++ (putU 1 ro ++ rest)) = some (t, s)) : t.ro = ro := by
  unfold TrieProbStore.load at h
  obtain ⟨o', s1, g1, h⟩ := rd_some h
  have e1 : s1 = putU 1 ro ++ rest := by
    have : getU 1 (putU 1 o ++ (putU 1 ro ++ rest)) = some ((BitVec.ofNat 8 o).toNat + 256 * 0, putU 1 ro ++ rest) := rfl
    rw [this] at g1
    exact (Prod.mk.inj (Option.some.inj g1)).2.symm
  subst e1
  obtain ⟨ro', s2, g2, h⟩ := rd_some h
  rw [getU1 hr] at g2
  obtain ⟨e, -⟩ := Prod.mk.inj (Option.some.inj g2)
  obtain ⟨_, _, -, h⟩ := rd_some h
  split at h
  · cases h
  obtain ⟨_, _, -, h⟩ := rd_some h
  obtain ⟨_, _, -, h⟩ := rd_some h
  obtain ⟨_, _, -, h⟩ := rd_some h
  obtain ⟨_, _, -, h⟩ := rd_some h
  have := (Prod.mk.inj (Option.some.inj h)).1
  rw [← this]; exact e.symm

theorem count_built_ro {L : SortLib} {hv : Mphf (List Byte) 64} {G : GramsSt} {R : RanksSt} {ro : Nat} {files : List (List Byte)}
    {t : StCount (List Byte) G R} (h : StCount.buildFiles L hv G R ro files = some (.ok t)) : t.ro = ro := by
  unfold StCount.buildFiles at h
  obtain ⟨_, _, h⟩ := Res.bind_ok_iff h
  obtain ⟨_, _, h⟩ := Res.bind_ok_iff h
  unfold StCount.build at h
  split at h
  · cases h
  · obtain ⟨_, _, h⟩ := Res.bind_ok_iff h
    obtain ⟨_, _, h⟩ := Res.bind_ok_iff h
    obtain ⟨_, _, h⟩ := Res.bind_ok_iff h
    obtain ⟨_, _, h⟩ := Res.bind_ok_iff h
    obtain ⟨_, _, h⟩ := Res.bind_ok_iff h
    obtain ⟨_, _, h⟩ := Res.bind_ok_iff h
    obtain ⟨_, _, h⟩ := Res.bind_ok_iff h
    cases h; rfl

theorem prob_built_ro {strtod : List Byte → F × Nat} {fb : FloatBits F} {sort : List F → List F} {negInf default unk : F} {hv : Mphf (List Byte) 64}
    {G : GramsSt} {R : RanksSt} {ro pb bb order : Nat} {file : List Byte} {t : StProb (List Byte) F G R}
    (h : StProb.buildArpa strtod fb sort negInf default hv G R ro unk pb bb order file = some (.ok t)) : t.ro = ro := by
  unfold StProb.buildArpa at h
  obtain ⟨_, _, h⟩ := Res.bind_ok_iff h
  obtain ⟨_, _, h⟩ := Res.bind_ok_iff h
  unfold StProb.build at h
  split at h
  · cases h
  · obtain ⟨_, _, h⟩ := Res.bind_ok_iff h
    obtain ⟨_, _, h⟩ := Res.bind_ok_iff h
    obtain ⟨_, _, h⟩ := Res.bind_ok_iff h
    obtain ⟨_, _, h⟩ := Res.bind_ok_iff h
    obtain ⟨_, _, h⟩ := Res.bind_ok_iff h
    cases h; rfl

theorem store_built_ro {strtod : List Byte → F × Nat} {fb : FloatBits F} {sort : List F → List F} {negInf default unk : F} {hv : Mphf (List Byte) 64}
    {G : GramsData} {R : RanksData} {ro pb bb order : Nat} {file : List Byte} {t : TrieProbStore (List Byte) F G R}
    (h : TrieProbStore.buildArpa strtod fb sort negInf default hv G R ro unk pb bb order file = some (.ok t)) : t.ro = ro := by
  unfold TrieProbStore.buildArpa at h
  obtain ⟨_, _, h⟩ := Res.bind_ok_iff h
  obtain ⟨_, _, h⟩ := Res.bind_ok_iff h
  unfold TrieProbStore.build at h
  split at h
  · cases h
  · obtain ⟨_, _, h⟩ := Res.bind_ok_iff h
    obtain ⟨_, _, h⟩ := Res.bind_ok_iff h
    obtain ⟨_, _, h⟩ := Res.bind_ok_iff h
    obtain ⟨_, _, h⟩ := Res.bind_ok_iff h
    obtain ⟨_, _, h⟩ := Res.bind_ok_iff h
    cases h; rfl

theorem applied_eq {m : MapperT} {ro : Nat} (h : m = .identity → ro = 0) : m.applied ro = ro := by
  cases m with
  | identity => exact (h rfl).symm
  | sortedArray => rfl

theorem perfTest_congr {M : Type} (u : CountUse M) {l l' : Rd M} {binary : List Byte} (h : loadFile l binary = loadFile l' binary)
    (lines : List (List Byte)) (runs : Nat) : perfTest u l binary lines runs = perfTest u l' binary lines runs := by
  unfold perfTest; rw [h]

theorem checkOrders_congr {M : Type} (u : CountUse M) {folder folder' : List (List Byte)} : ∀ (n k : Nat) (m : M),
    (∀ i, k ≤ i → i < k + n → folder[i]? = folder'[i]?) → checkOrders u folder n k m = checkOrders u folder' n k m
  | 0, _, _, _ => rfl
  | n + 1, k, m, h => by
    unfold checkOrders
    rw [h k (Nat.le_refl k) (by omega)]
    cases folder'[k]? with
    | none => rfl
    | some file =>
      simp only
      congr 1; funext ls; congr 1; funext r
      rw [checkOrders_congr u n (k + 1) r.2 fun i h1 h2 => h i (by omega) (by omega)]

theorem test_load {M : Type} {u : CountUse M} {l : Rd M} {binary : List Byte} {folder : List (List Byte)} {r : Report}
    (h : testCountModel u l binary folder = some (.ok r)) : ∃ m n, loadFile l binary = some (m, n) := by
  unfold testCountModel at h
  obtain ⟨p, h1, -⟩ := Res.bind_ok_iff h
  exact ⟨p.1, p.2, by cases e : loadFile l binary with
    | none => rw [e] at h1; cases h1
    | some q => rw [e] at h1; cases h1; rfl⟩

theorem checkOrders_length {M : Type} (u : CountUse M) {folder : List (List Byte)} : ∀ (n k : Nat) (m : M) (r : List (List Nat) × M),
    checkOrders u folder n k m = some (.ok r) → r.1.length = n
  | 0, _, _, _, h => by cases h; rfl
  | n + 1, k, m, r, h => by
    unfold checkOrders at h
    split at h
    · cases h
    · obtain ⟨_, -, h⟩ := Res.bind_ok_iff h
      obtain ⟨_, -, h⟩ := Res.bind_ok_iff h
      obtain ⟨q, h1, h⟩ := Res.bind_ok_iff h
      have := checkOrders_length u n (k + 1) _ q h1
      cases h
      rw [List.length_cons, this]

/-- A longer folder: only the files up to the order of the model are read. -/
theorem test_more {M : Type} {u : CountUse M} {l l' : Rd M} {binary : List Byte} (hl : loadFile l' binary = loadFile l binary)
    {folder : List (List Byte)} {n : Nat} {r : Report}
    (h : testCountModel u l binary (folder.take n) = some (.ok r)) (hn : r.missing.length = n) :
    testCountModel u l' binary folder = some (.ok r) := by
  obtain ⟨m, k, e⟩ := test_load h
  have ho : u.order m = n := by
    have g := h
    unfold testCountModel at g
    rw [e, Res.lift_some, Res.bind_ok] at g
    obtain ⟨q, g1, g2⟩ := Res.bind_ok_iff g
    have := checkOrders_length u _ _ _ _ g1
    have g3 := congrArg Report.missing (Except.ok.inj (Option.some.inj g2))
    simp only at g3
    rw [← hn, ← g3, this]
  unfold testCountModel at h ⊢
  rw [hl]
  rw [e, Res.lift_some, Res.bind_ok] at h ⊢
  simp only [ho] at h ⊢
  rw [checkOrders_congr u (folder' := folder.take n) n 0 m fun i _ h2 => by rw [List.getElem?_take, if_pos (by omega)]]
  exact h

end Tools

/-! ## Specification -/

/-- Specification: the representations of the hash functions in a file are read back, the members that are not built can be saved, and there is some
memory after each array. -/
structure Spec.ToolEnvOk {F : Type} (E : ToolEnv F) : Prop where
  sort : E.L.Valid
  c : Spec.EmphfReads E.c E.hv
  c' : ∀ k, Spec.EmphfReads E.c' (E.hr k)
  ju : E.ju.Fits E.c'
  jg : E.jg.Fits E.c'
  ji : E.ji.Fits
  je : E.je.Fits
  jp : E.jp.Fits
  jr : E.jr.Fits
  junkU : ∀ k, E.junkU k ≠ []
  junkD : ∀ k, E.junkD k ≠ []
  junkU' : ∀ k, E.junkU' k ≠ []
  junkD' : ∀ k, E.junkD' k ≠ []
  junk : ∀ k, E.junk k ≠ []
  junk' : ∀ k, E.junk' k ≠ []
  past : E.past ≠ []

/-- Specification: what the programs report of a count model: the bytes of the file, the number of n-grams; for `test_count_model` no line of any of the
files is missing. -/
def Spec.report (binary : List Byte) (files : List (List (List (List Byte) × Nat))) : Report :=
  ⟨binary.length, (files.map List.length).sum, List.replicate files.length []⟩

/-- Specification: what `lookup_perf_test` computes: in each run, the count of each query. -/
def Spec.perf (binary : List Byte) (files : List (List (List (List Byte) × Nat))) (counts : List Nat) (runs : Nat) : Perf :=
  ⟨binary.length, (files.map List.length).sum, counts.length, List.replicate runs counts⟩

/-- Specification: how long the files may be for the ranks that the arguments ask for. -/
def Spec.maxLines (a : TrieArgs) : Nat := if a.ranks = some "PSEF" then 2 ^ 32 else if a.ranks = some "PSPEF" then 2 ^ 28 else 2 ^ 56

/-! ## Properties -/

section
variable {F : Type} [FloatArith F]
namespace Tools

theorem count_file {E : ToolEnv F} {binary : List Byte} {header : Byte} {body : List Byte} (hb : saveFile header body = binary) {t : ModelT}
    (h1 : loadChoice countTypes header = some (some t)) (h2 : loadChoice scoreTypes header = some none)
    (files : List (List (List (List Byte) × Nat))) {folder : List (List Byte)} {M : Type} {u : CountUse M} {l : Rd M}
    (hw : ∀ {α : Type} (k : (M : Type) → CountUse M → Rd M → Res α), E.withCount k t = k M u l)
    {l' : Rd M} (hl : loadFile l binary = loadFile l' binary)
    (ht : testCountModel u l' binary (folder.take files.length) = some (.ok (Spec.report binary files))) :
    testCountModelMain E binary folder = some (.ok (some (Spec.report binary files))) ∧
    (∀ lines counts runs, 0 < runs → perfTest u l' binary lines runs = some (.ok (Spec.perf binary files counts runs)) →
      lookupPerfTestMain E binary lines runs = some (.ok (some (Spec.perf binary files counts runs)))) ∧
    (∀ lines, lookupPerfTestMain E binary lines 0 = some (.error ())) ∧
    ∀ text, scoreMain E binary text = some (.ok none) := by
  subst hb
  refine ⟨?_, ?_, fun lines => if_pos rfl, ?_⟩
  · unfold testCountModelMain
    rw [fileType_saved, h1, Res.lift_some, Res.bind_ok]
    simp only
    rw [hw, test_more hl ht (by simp [Spec.report]), Res.bind_ok]
  · intro lines counts runs hr hp
    unfold lookupPerfTestMain
    rw [if_neg (by omega), fileType_saved, h1, Res.lift_some, Res.bind_ok]
    simp only
    rw [hw, perfTest_congr u hl, hp, Res.bind_ok]
  · intro text
    unfold scoreMain
    rw [fileType_saved, h2, Res.lift_some, Res.bind_ok]

theorem type_ro (a : TrieArgs) (ha : Spec.ValidTrieArgs a) :
    (if a.remapping.getD 0 = 0 then MapperT.identity else .sortedArray).applied (Spec.remapping a) = Spec.remapping a ∧ a.remapping.getD 0 % 256 = Spec.remapping a ∧
      Spec.remapping a < 256 := by
  have h1 : Spec.remapping a ≤ 2 := by
    unfold Spec.remapping
    cases e : a.remapping with
    | none => simp
    | some r => exact ha.remapping r e
  refine ⟨applied_eq fun h => ?_, Nat.mod_eq_of_lt (by unfold Spec.remapping at h1; omega), by omega⟩
  unfold Spec.remapping
  by_contra hne
  rw [if_neg hne] at h
  cases h

end Tools

open Tools in
/-- **C69** (count tries): for valid arguments of `build_trie` with the value type `count`, files in a folder that the documentation allows, whatever the
`--arpa`, `--p`, `--b` and `--u` given: a file is written that starts with the byte of the arguments; `test_count_model` and `lookup_perf_test`, in other
processes, accept it without being told the class, the first finds every count of every line, the second gives for each query its count, or `not_found`;
`score` refuses it. -/
theorem C69_count_trie_programs (E : ToolEnv F) (hE : Spec.ToolEnvOk E) (a : TrieCommand F) (ha : Spec.ValidTrieArgs a.choice) (hv : a.choice.value = "count")
    (hun : ∀ u ∈ a.unk, u < 0) {U : List (List Byte)} {files : List (List (List (List Byte) × Nat))} (ho : a.order = files.length)
    (h : Spec.CountFiles U files (Spec.remapping a.choice)) (hp : a.choice.dataStructure = "pef_trie" → Spec.PefFiles U files (Spec.remapping a.choice))
    (hw : ∀ f ∈ files, f ≠ [] ∧ ∀ r ∈ f, ∀ w ∈ r.1, Spec.FileWord w) (hlen : ∀ f ∈ files, f.length < Spec.maxLines a.choice)
    (hb : E.hv.BuiltFrom U) (hh : Spec.RangeHashes E.hr files)
    {folder : List (List Byte)} (hf : folder.take files.length = files.map Spec.gramsText) (arpa : Option (List Byte)) :
    ∃ binary, buildTrie E a folder arpa = some (.ok (some binary)) ∧ binary.head? = some (Spec.trieHeader a.choice) ∧
      testCountModelMain E binary folder = some (.ok (some (Spec.report binary files))) ∧
      (∀ (qs : List (List Byte × List (List Byte) × Nat)) (runs : Nat), 0 < runs →
        (∀ q ∈ qs, Spec.TrieQuery (if a.choice.dataStructure = "ef_trie" then Spec.EfAbsent E.hv U files (Spec.remapping a.choice)
          else Spec.PefAbsent E.hv U files (Spec.remapping a.choice)) files q) →
        lookupPerfTestMain E binary (qs.map (·.1)) runs = some (.ok (some (Spec.perf binary files (qs.map (·.2.2)) runs)))) ∧
      (∀ lines, lookupPerfTestMain E binary lines 0 = some (.error ())) ∧
      ∀ text, scoreMain E binary text = some (.ok none) := by
  obtain ⟨header, c1, -, c2, c3⟩ := C35_trie_header a.choice ha
  have hhead := C35_header_byte a.choice ha header _ c1
  obtain ⟨r1, r2, r3⟩ := type_ro a.choice ha
  have hlen0 : files.length ≤ folder.length := by
    have := congrArg List.length hf
    rw [List.length_take, List.length_map] at this
    omega
  generalize hro : Spec.remapping a.choice = ro at *
  have hord := h.order_min
  have hord' := h.order_max
  -- the arguments
  generalize hm : (if a.choice.remapping.getD 0 = 0 then MapperT.identity else .sortedArray) = m at *
  obtain ⟨r, hr⟩ : ∃ r, r = (match a.choice.ranks with
    | some r => if r = "PSEF" then RanksT.PSEF else if r = "PSPEF" then .PSPEF else .IC
    | none => .IC : RanksT) := ⟨_, rfl⟩
  have hmax : ∀ f ∈ files, f.length < (r.ranks E.swap).maxLines := by
    intro f hf'
    have h1 := hlen f hf'
    have h2 : Spec.maxLines a.choice = (r.ranks E.swap).maxLines := by
      subst hr
      unfold Spec.maxLines
      cases e : a.choice.ranks with
      | none => simp [RanksT.ranks, PefRanks.maxLines]
      | some r =>
        rcases ha.ranks r e with rfl | rfl | rfl <;> simp [RanksT.ranks, PefRanks.maxLines]
    omega
  have hwrite : ∀ (t : ModelT) (body : List Byte), E.countBody ro (files.map Spec.gramsText) t = some (.ok body) →
      buildTrieChoice a.choice = some (.ok (header, some t)) → buildTrie E a folder arpa = some (.ok (some (saveFile header body))) := by
    intro t body e1 e2
    unfold buildTrie
    rw [ho, checkOrder_ok hord hord', Res.bind_ok, checkUnk_ok hun, Res.bind_ok, e2, Res.bind_ok, hv, r2, Nat.mod_eq_of_lt (by omega)]
    unfold ToolEnv.writeFile
    simp only [beq_self_eq_true, if_true]
    unfold gramsFiles
    rw [if_neg (by omega), hf, Res.bind_ok, e1, Res.bind_ok]
  rcases ha.dataStructure with hd | hd
  · have ht : Spec.trieType a.choice = .trieCount m r .fastEF := by
      unfold Spec.trieType
      rw [if_pos hv, if_pos hd, hm, hr]
      rfl
    rw [ht] at c1 c2 c3
    simp only [Spec.isCount, if_true] at c2 c3
    obtain ⟨t, binary, d1, d2, d3, d4⟩ := C58_ef_count_trie hE.sort h hw hb hE.c hh hE.c' hE.ju hE.jg hE.junkU hE.junkD hE.junkU' hE.junkD'
      (r.ranks E.swap) hmax hE.ji hE.je hE.jp header
    have hbody : E.countBody ro (files.map Spec.gramsText) (.trieCount m r .fastEF) = some (.ok (t.save (GramsFile.data E.efGrams E.jg)
        ((r.ranks E.swap).file E.junkU E.junkD E.ji E.je) E.jp E.c)) := by
      unfold ToolEnv.countBody
      simp only
      rw [r1, d1, Res.bind_ok]
      have := count_built_ro d1
      rw [← this]
    have hl : loadFile (StCount.loadAs m (GramsFile.data E.efGrams E.jg) ((r.ranks E.swap).file E.junkU' E.junkD' E.ji E.je) E.c) binary =
        loadFile (StCount.load (GramsFile.data E.efGrams E.jg) ((r.ranks E.swap).file E.junkU' E.junkD' E.ji E.je) E.c) binary := by
      obtain ⟨t2, n, e⟩ := test_load d3
      unfold StCount.loadAs
      rw [loadFile_as, e, Option.map_some]
      rw [← d2] at e
      obtain ⟨s, e'⟩ := loadFile_saved e
      have hr2 : t2.ro = ro := by
        have := count_built_ro d1
        rw [← this]
        exact count_ro (by rw [this]; exact r3) e'
      simp only [hr2, r1]
      rw [← hr2]
    refine ⟨binary, d2 ▸ hwrite _ _ hbody c1, by rw [← d2, head_saved, hhead], ?_⟩
    obtain ⟨g1, g2, g3, g4⟩ := count_file (E := E) d2 c2 c3 files (folder := folder) (u := StCount.use) (fun k => rfl) hl (by rw [hf]; exact d3)
    refine ⟨g1, fun qs runs hr hq => g2 _ _ _ hr ?_, g3, g4⟩
    rw [if_pos hd] at hq
    rw [d4 qs runs hr hq]
    simp [Spec.perf]
  · have hd' : a.choice.dataStructure ≠ "ef_trie" := by rw [hd]; decide
    have ht : Spec.trieType a.choice = .trieCount m r .uniformPEF := by
      unfold Spec.trieType
      rw [if_pos hv, if_neg hd', hm, hr]
      rfl
    rw [ht] at c1 c2 c3
    simp only [Spec.isCount, if_true] at c2 c3
    obtain ⟨t, binary, d1, d2, d3, d4⟩ := C58_pef_count_trie hE.sort h (hp hd) hw hb hE.c hE.junkU hE.junkD hE.junkU' hE.junkD'
      (r.ranks E.swap) hmax hE.ji hE.je hE.jp header
    have hbody : E.countBody ro (files.map Spec.gramsText) (.trieCount m r .uniformPEF) = some (.ok (t.save (GramsFile.pef E.junkU E.junkD)
        ((r.ranks E.swap).file E.junkU E.junkD E.ji E.je) E.jp E.c)) := by
      unfold ToolEnv.countBody
      simp only
      rw [r1, d1, Res.bind_ok]
      have := count_built_ro d1
      rw [← this]
    have hl : loadFile (StCount.loadAs m (GramsFile.pef E.junkU' E.junkD') ((r.ranks E.swap).file E.junkU' E.junkD' E.ji E.je) E.c) binary =
        loadFile (StCount.load (GramsFile.pef E.junkU' E.junkD') ((r.ranks E.swap).file E.junkU' E.junkD' E.ji E.je) E.c) binary := by
      obtain ⟨t2, n, e⟩ := test_load d3
      unfold StCount.loadAs
      rw [loadFile_as, e, Option.map_some]
      rw [← d2] at e
      obtain ⟨s, e'⟩ := loadFile_saved e
      have hr2 : t2.ro = ro := by
        have := count_built_ro d1
        rw [← this]
        exact count_ro (by rw [this]; exact r3) e'
      simp only [hr2, r1]
      rw [← hr2]
    refine ⟨binary, d2 ▸ hwrite _ _ hbody c1, by rw [← d2, head_saved, hhead], ?_⟩
    obtain ⟨g1, g2, g3, g4⟩ := count_file (E := E) d2 c2 c3 files (folder := folder) (u := StCount.use) (fun k => rfl) hl (by rw [hf]; exact d3)
    refine ⟨g1, fun qs runs hr hq => g2 _ _ _ hr ?_, g3, g4⟩
    rw [if_neg hd'] at hq
    rw [d4 qs runs hr hq]
    simp [Spec.perf]

end

section
variable {F : Type} [FloatArith F]
open Tools

theorem Tools.prob_file {E : ToolEnv F} {binary : List Byte} {header : Byte} {body : List Byte} (hb : saveFile header body = binary) {t : ModelT}
    (h1 : loadChoice scoreTypes header = some (some t)) (h2 : loadChoice countTypes header = some none) :
    (∀ text r, E.scoreAs binary text t = some r → scoreMain E binary text = some (.ok (some r))) ∧
    (∀ folder, testCountModelMain E binary folder = some (.ok none)) ∧
    ∀ lines runs, 0 < runs → lookupPerfTestMain E binary lines runs = some (.ok none) := by
  subst hb
  refine ⟨fun text r h => ?_, fun folder => ?_, fun lines runs hr => ?_⟩
  · unfold scoreMain
    rw [fileType_saved, h1, Res.lift_some, Res.bind_ok]
    simp only
    rw [h, Res.lift_some, Res.bind_ok]
  · unfold testCountModelMain
    rw [fileType_saved, h2, Res.lift_some, Res.bind_ok]
  · unfold lookupPerfTestMain
    rw [if_neg (by omega), fileType_saved, h2, Res.lift_some, Res.bind_ok]

/-- Specification: a text that `score` can read: lines of words. -/
def Spec.IsText (text : List (List (List Byte))) : Prop := ∀ l ∈ text, l ≠ [] ∧ ∀ w ∈ l, Spec.IsWord w

/-- **C69** (backoff tries): for valid arguments of `build_trie` with the value type `prob_backoff`, and an ARPA file that the documentation allows: a
file is written that starts with the byte of the arguments; `score`, in another process, accepts it without being told the class, and prints for a text the
totals of the ARPA file, with the values quantised with the bits asked for (8 by default) and the probability of `<unk>` of the file, or of the option,
or the default; the programs for counts refuse it. -/
theorem C69_backoff_trie_programs (E : ToolEnv F) (hE : Spec.ToolEnvOk E) (hsort : ∀ l, (E.sort l).Perm l ∧ (E.sort l).Pairwise (· ≤ ·))
    (a : TrieCommand F) (ha : Spec.ValidTrieArgs a.choice) (hv : a.choice.value = "prob_backoff")
    (hun : ∀ u ∈ a.unk, u < 0) (lead gap : Nat) {sections : List (List (Spec.ArpaLine F) × Nat)} {tail : List Byte} (ho : a.order = sections.length)
    (hg : Spec.GoodArpa E.strtod sections tail)
    {U : List (List Byte)} {data : List (List (List (List Byte) × F × F))} {pb bb : Nat} (hpb : pb = a.p.getD 8) (hbb : bb = a.b.getD 8)
    (hd : Spec.ArpaLists sections data) (hwords : ∀ f ∈ data, ∀ r ∈ f, ∀ w ∈ r.1, w ≠ [] ∧ sp ∉ w)
    (h : Spec.ProbFiles U data (Spec.remapping a.choice))
    (hp : a.choice.dataStructure = "pef_trie" → Spec.PefFiles U (TrieProb.asCounts data) (Spec.remapping a.choice))
    (hq : Spec.Quantisable data pb bb) (hbits : pb + bb ≤ 58)
    (hfb : ∀ f0, data[0]? = some f0 → ∀ r ∈ f0, E.fb.dec (E.fb.enc r.2.1) = r.2.1 ∧ E.fb.dec (E.fb.enc r.2.2) = r.2.2)
    (hcb : ∀ ps bs, Quant.codebooks E.sort E.negInf pb bb data = some (.ok (ps, bs)) → ∀ l ∈ ps ++ bs, ∀ x ∈ l, Spec.IsFloat E.fb x)
    (hunk : Spec.IsFloat E.fb (Spec.unkProb Spec.unkText E.defaultUnk (data.getD 0 []) (a.unk.getD E.defaultUnk)))
    (hb : E.hv.BuiltFrom U) (hh : Spec.RangeHashes E.hr (TrieProb.asCounts data)) (folder : List (List Byte)) :
    ∃ binary qp qb, buildTrie E a folder (some (Spec.arpaText lead gap sections tail)) = some (.ok (some binary)) ∧
      binary.head? = some (Spec.trieHeader a.choice) ∧ Spec.Quantised data pb bb qp qb ∧
      (∀ text : List (List (List Byte)), Spec.IsText text →
        (∀ l ∈ text, if a.choice.dataStructure = "ef_trie" then ∀ w ∈ l, Spec.Recognised E.hv U w
          else ∀ g, Scorer.Occurs l g → Spec.PefScorable E.hv U data (Spec.remapping a.choice) g.reverse) →
        scoreMain E binary (textOf text) = some (.ok (some
          ((Spec.Arpa.ofData data (Spec.unkProb Spec.unkText E.defaultUnk (data.getD 0 []) (a.unk.getD E.defaultUnk)) qp qb).corpus text)))) ∧
      (∀ folder', testCountModelMain E binary folder' = some (.ok none)) ∧
      ∀ lines runs, 0 < runs → lookupPerfTestMain E binary lines runs = some (.ok none) := by
  obtain ⟨header, c1, -, c2, c3⟩ := C35_trie_header a.choice ha
  have hhead := C35_header_byte a.choice ha header _ c1
  obtain ⟨r1, r2, r3⟩ := type_ro a.choice ha
  generalize hro : Spec.remapping a.choice = ro at *
  have hord := h.arpa.order_min
  have hord' := h.arpa.order_max
  have hls : sections.length = data.length := by
    have := congrArg List.length hd
    unfold Spec.lines at this
    rw [List.length_map, List.length_map] at this
    exact this
  have hvc : a.choice.value ≠ "count" := by rw [hv]; decide
  generalize hm : (if a.choice.remapping.getD 0 = 0 then MapperT.identity else .sortedArray) = m at *
  have hq1 := hq.probs.2
  have hq2 := hq.backoffs.2
  have hwrite : ∀ (t : ModelT) (body : List Byte),
      E.probBody ro sections.length (a.unk.getD E.defaultUnk) pb bb (Spec.arpaText lead gap sections tail) t = some (.ok body) →
      buildTrieChoice a.choice = some (.ok (header, some t)) →
      buildTrie E a folder (some (Spec.arpaText lead gap sections tail)) = some (.ok (some (saveFile header body))) := by
    intro t body e1 e2
    unfold buildTrie
    rw [ho, checkOrder_ok (by omega) (by omega), Res.bind_ok, checkUnk_ok hun, Res.bind_ok, e2, Res.bind_ok, r2, Nat.mod_eq_of_lt (a := sections.length) (by omega), ← hpb, ← hbb,
      Nat.mod_eq_of_lt (a := pb) (by omega), Nat.mod_eq_of_lt (a := bb) (by omega)]
    unfold ToolEnv.writeFile
    simp only [beq_eq_false_iff_ne.2 hvc, Bool.false_eq_true, if_false]
    rw [Res.lift_some, Res.bind_ok, e1, Res.bind_ok]
  rcases ha.dataStructure with hds | hds
  · have ht : Spec.trieType a.choice = .trieProb m .fastEF := by
      unfold Spec.trieType
      rw [if_neg hvc, if_pos hds, hm]
    rw [ht] at c1 c2 c3
    simp only [Spec.isCount, Bool.false_eq_true, if_false] at c2 c3
    obtain ⟨s, s', d1, d2, d3⟩ := C50_backoff_trie lead gap hg E.fb hsort E.negInf E.defaultUnk (a.unk.getD E.defaultUnk) hd hwords h hq hbits hfb hcb hunk hb hh
      hE.c hE.c' hE.ju (j := ⟨E.jg, E.jr, E.jp⟩) hE.jg hE.jr hE.jp header
    obtain ⟨qp, qb, e1, e2⟩ := d3 E.past hE.past
    have hs := store_built_ro d1
    have hbody : E.probBody ro sections.length (a.unk.getD E.defaultUnk) pb bb (Spec.arpaText lead gap sections tail) (.trieProb m .fastEF) =
        some (.ok (s.save E.fb E.c ⟨E.jg, E.jr, E.jp⟩ bb)) := by
      unfold ToolEnv.probBody
      simp only
      rw [r1, d1, Res.bind_ok, ← hs]
    have hl : loadFile (TrieProbStore.loadAs (G := E.efGrams) (R := RanksData.cv) m E.fb E.c) (saveFile header (s.save E.fb E.c ⟨E.jg, E.jr, E.jp⟩ bb)) =
        some (s', (saveFile header (s.save E.fb E.c ⟨E.jg, E.jr, E.jp⟩ bb)).length) := by
      unfold TrieProbStore.loadAs
      rw [loadFile_as, d2, Option.map_some]
      obtain ⟨_, e'⟩ := loadFile_saved d2
      have hr2 : s'.ro = ro := by rw [← hs]; exact store_ro (by rw [hs]; exact r3) e'
      simp only [hr2, r1]
      rw [← hr2]
    obtain ⟨g1, g2, g3⟩ := prob_file (E := E) (binary := saveFile header (s.save E.fb E.c ⟨E.jg, E.jr, E.jp⟩ bb)) rfl c3 c2
    refine ⟨_, qp, qb, hwrite _ _ hbody c1, by rw [head_saved, hhead], e1, fun text hT hR => g1 _ _ ?_, g2, g3⟩
    simp only [if_pos hds] at hR
    unfold ToolEnv.scoreAs
    simp only
    rw [hl, Option.bind_some]
    exact ((e2 _ rfl).1 text E.d E.one fun l hl => ⟨(hT l hl).1, fun w hw => ⟨(hT l hl).2 w hw, hR l hl w hw⟩⟩).1
  · have hds' : a.choice.dataStructure ≠ "ef_trie" := by rw [hds]; decide
    have ht : Spec.trieType a.choice = .trieProb m .uniformPEF := by
      unfold Spec.trieType
      rw [if_neg hvc, if_neg hds', hm]
    rw [ht] at c1 c2 c3
    simp only [Spec.isCount, Bool.false_eq_true, if_false] at c2 c3
    obtain ⟨t, qp, qb, d1, e1, d3⟩ := C50_pef_backoff_trie lead gap hg E.fb hsort E.negInf E.defaultUnk (a.unk.getD E.defaultUnk) hd hwords h (hp hds) hq hbits
      hfb hcb hunk hb hE.c hE.junkU hE.junkD hE.junk hE.junkU' hE.junkD' hE.junk' hE.jr hE.jp header
    obtain ⟨t1, d4, s', d2, d5⟩ := d3 _ rfl 0 [] E.d E.one (by simp) trivial
    have ht1 : t1 = t := by
      unfold StProb.session at d4
      obtain ⟨r, f1, f2⟩ := Option.map_eq_some_iff.1 d4
      obtain ⟨q, f3, f4⟩ := Option.bind_eq_some_iff.1 f1
      unfold StScorer.session at f4
      obtain ⟨x, -, f5⟩ := Option.map_eq_some_iff.1 f3
      have e4 := Option.some.inj f4
      have e2 := (Prod.mk.inj f2).2
      rw [← e2, ← e4, ← f5]
    subst ht1
    have hs := prob_built_ro d1
    have hbody : E.probBody ro sections.length (a.unk.getD E.defaultUnk) pb bb (Spec.arpaText lead gap sections tail) (.trieProb m .uniformPEF) =
        some (.ok (t1.save (GramsFile.pef E.junkU E.junkD) (RanksFile.data RanksData.cv E.junk E.jr) E.jp E.fb E.c bb)) := by
      unfold ToolEnv.probBody
      simp only
      rw [r1, d1, Res.bind_ok, ← hs]
    have hl : loadFile (StProb.loadAs m (GramsFile.pef E.junkU' E.junkD') (RanksFile.data RanksData.cv E.junk' E.jr) E.fb E.c)
        (saveFile header (t1.save (GramsFile.pef E.junkU E.junkD) (RanksFile.data RanksData.cv E.junk E.jr) E.jp E.fb E.c bb)) =
        some (s', (saveFile header (t1.save (GramsFile.pef E.junkU E.junkD) (RanksFile.data RanksData.cv E.junk E.jr) E.jp E.fb E.c bb)).length) := by
      unfold StProb.loadAs
      rw [loadFile_as, d2, Option.map_some]
      obtain ⟨_, e'⟩ := loadFile_saved d2
      have hr2 : s'.ro = ro := by rw [← hs]; exact prob_ro (by rw [hs]; exact r3) e'
      simp only [hr2, r1]
      rw [← hr2]
    obtain ⟨g1, g2, g3⟩ := prob_file (E := E)
      (binary := saveFile header (t1.save (GramsFile.pef E.junkU E.junkD) (RanksFile.data RanksData.cv E.junk E.jr) E.jp E.fb E.c bb)) rfl c3 c2
    refine ⟨_, qp, qb, hwrite _ _ hbody c1, by rw [head_saved, hhead], e1, fun text hT hR => g1 _ _ ?_, g2, g3⟩
    simp only [if_neg hds'] at hR
    unfold ToolEnv.scoreAs
    simp only
    rw [hl, Option.bind_some]
    obtain ⟨t3, e3⟩ := d5 text E.d E.one hT hR
    simp only [e3, Option.map_some]

/-- Specification: the hash functions that `build_hash` uses for keys of the given bytes were built for the n-grams of each order, and are read back
from a file. -/
def Spec.HashesBuilt {F : Type} (E : ToolEnv F) (bytes : Nat) (keys : List (List (List Byte))) : Prop :=
  (∀ (k : Nat) (f : List (List Byte)), keys[k]? = some f → if bytes = 4 then (E.hs32 k).BuiltFrom f else (E.hs64 k).BuiltFrom f) ∧
    ∀ k, if bytes = 4 then Spec.EmphfReads E.c32 (E.hs32 k) else Spec.EmphfReads E.c64 (E.hs64 k)

/-- **C69** (hash count models): the same for `build_hash` with the value type `count`. -/
theorem C69_hash_count_programs (E : ToolEnv F) (hL : E.L.Valid) (a : HashCommand F) (ha : Spec.ValidHashArgs a.choice) (hv : a.choice.value = "count")
    (hun : ∀ u ∈ a.unk, u < 0) {files : List (List (List (List Byte) × Nat))} (ho : a.order = files.length) (h : Spec.CountLists E.mem files)
    (hw : ∀ f ∈ files, ∀ r ∈ f, ∀ w ∈ r.1, Spec.FileWord w) (hn : ∀ f ∈ files, f.length < if a.choice.hashKeyBytes = 4 then 2 ^ 26 else 2 ^ 57)
    (hb : Spec.HashesBuilt E a.choice.hashKeyBytes (files.map (·.map fun r => joinSp r.1)))
    {folder : List (List Byte)} (hf : folder.take files.length = files.map Spec.gramsText) (arpa : Option (List Byte)) :
    ∃ binary, buildHash E a folder arpa = some (.ok (some binary)) ∧ binary.head? = some (Spec.hashHeader a.choice) ∧
      testCountModelMain E binary folder = some (.ok (some (Spec.report binary files))) ∧
      (∀ (qs : List (List Byte × List (List Byte) × Nat)) (runs : Nat), 0 < runs →
        (∀ q ∈ qs, Spec.queryOf q.1 = joinSp q.2.1 ∧ ∃ f ∈ files, q.2 ∈ f) →
        lookupPerfTestMain E binary (qs.map (·.1)) runs = some (.ok (some (Spec.perf binary files (qs.map (·.2.2)) runs)))) ∧
      (∀ lines, lookupPerfTestMain E binary lines 0 = some (.error ())) ∧
      ∀ text, scoreMain E binary text = some (.ok none) := by
  obtain ⟨header, c1, -, c2, c3⟩ := C35_hash_header a.choice ha
  have hhead := C35_hash_header_byte a.choice ha header _ c1
  have hlen0 : files.length ≤ folder.length := by
    have := congrArg List.length hf
    rw [List.length_take, List.length_map] at this
    omega
  have hord := h.order_min
  have hord' := h.order_max
  have hwrite : ∀ (t : ModelT) (body : List Byte), E.countBody 0 (files.map Spec.gramsText) t = some (.ok body) →
      buildHashChoice a.choice = some (.ok (header, some t)) → buildHash E a folder arpa = some (.ok (some (saveFile header body))) := by
    intro t body e1 e2
    unfold buildHash
    rw [ho, checkOrder_ok hord hord', Res.bind_ok, checkUnk_ok hun, Res.bind_ok, e2, Res.bind_ok, hv, Nat.mod_eq_of_lt (by omega)]
    unfold ToolEnv.writeFile
    simp only [beq_self_eq_true, if_true]
    unfold gramsFiles
    rw [if_neg (by omega), hf, Res.bind_ok, e1, Res.bind_ok]
  have ht : Spec.hashType a.choice = .mphCount (8 * a.choice.hashKeyBytes) := by unfold Spec.hashType; rw [if_pos hv]
  have hb' : ∀ (k : Nat) (f : List (List (List Byte) × Nat)), files[k]? = some f →
      if a.choice.hashKeyBytes = 4 then (E.hs32 k).BuiltFrom (f.map fun r => joinSp r.1) else (E.hs64 k).BuiltFrom (f.map fun r => joinSp r.1) := by
    intro k f hk
    exact hb.1 k _ (by rw [List.getElem?_map, hk]; rfl)
  have hb2 := hb.2
  rw [ht] at c1 c2 c3
  simp only [Spec.isCount, if_true] at c2 c3
  rcases ha.hashKeyBytes with h4 | h8
  · simp only [h4, if_true] at hb' hb2 hn c1 c2 c3
    obtain ⟨m, binary, d1, d2, d3, d4⟩ := C58_hash_count hL (extra := E.extra) h hw (.inr ⟨rfl, hn⟩) (fun f hf => by have := hn f hf; omega) hb' hb2 header
    have hbody : E.countBody 0 (files.map Spec.gramsText) (.mphCount (8 * 4)) = some (.ok (m.save E.c32)) := by
      unfold ToolEnv.countBody
      simp only
      rw [if_pos (by decide), d1, Res.bind_ok]
    refine ⟨binary, d2 ▸ hwrite _ _ hbody c1, by rw [← d2, head_saved, hhead], ?_⟩
    obtain ⟨g1, g2, g3, g4⟩ := count_file (E := E) d2 c2 c3 files (folder := folder) (u := MphCount.use) (l := MphCount.load E.c32) (fun k => rfl) rfl
      (by rw [hf]; exact d3)
    refine ⟨g1, fun qs runs hr hq => g2 _ _ _ hr ?_, g3, g4⟩
    rw [d4 qs runs hr hq]
    simp [Spec.perf]
  · have h84 : ¬ (8 : Nat) = 4 := by decide
    simp only [h8, if_neg h84] at hb' hb2 hn c1 c2 c3
    obtain ⟨m, binary, d1, d2, d3, d4⟩ := C58_hash_count hL (extra := E.extra) h hw (.inl rfl) hn hb' hb2 header
    have hbody : E.countBody 0 (files.map Spec.gramsText) (.mphCount (8 * 8)) = some (.ok (m.save E.c64)) := by
      unfold ToolEnv.countBody
      simp only
      rw [if_neg (by decide), if_pos (by decide), d1, Res.bind_ok]
    refine ⟨binary, d2 ▸ hwrite _ _ hbody c1, by rw [← d2, head_saved, hhead], ?_⟩
    obtain ⟨g1, g2, g3, g4⟩ := count_file (E := E) d2 c2 c3 files (folder := folder) (u := MphCount.use) (l := MphCount.load E.c64) (fun k => rfl) rfl
      (by rw [hf]; exact d3)
    refine ⟨g1, fun qs runs hr hq => g2 _ _ _ hr ?_, g3, g4⟩
    rw [d4 qs runs hr hq]
    simp [Spec.perf]

end

section
variable {F : Type} [FloatArith F]
open Tools

/-- **C69** (hash backoff models): the same for `build_hash` with the value type `prob_backoff`. -/
theorem C69_hash_backoff_programs (E : ToolEnv F) (hsort : ∀ l, (E.sort l).Perm l ∧ (E.sort l).Pairwise (· ≤ ·))
    (a : HashCommand F) (ha : Spec.ValidHashArgs a.choice) (hv : a.choice.value = "prob_backoff")
    (hun : ∀ u ∈ a.unk, u < 0) (lead gap : Nat) {sections : List (List (Spec.ArpaLine F) × Nat)} {tail : List Byte} (ho : a.order = sections.length)
    (hg : Spec.GoodArpa E.strtod sections tail) {data : List (List (List (List Byte) × F × F))} {pb bb : Nat} (hpb : pb = a.p.getD 8) (hbb : bb = a.b.getD 8)
    (hd : Spec.ArpaLists sections data)
    (h : if a.choice.hashKeyBytes = 4 then Spec.MphProbInput E.fb E.mem pb bb E.hs32 data else Spec.MphProbInput E.fb E.mem pb bb E.hs64 data)
    (hr : ∀ k, if a.choice.hashKeyBytes = 4 then Spec.EmphfReads E.c32 (E.hs32 k) else Spec.EmphfReads E.c64 (E.hs64 k))
    (hn : ∀ f ∈ data, f.length < 2 ^ 57)
    (hcb : ∀ ps bs, Quant.codebooks E.sort E.negInf pb bb data = some (.ok (ps, bs)) → ∀ l ∈ ps ++ bs, ∀ x ∈ l, Spec.IsFloat E.fb x)
    (hunk : Spec.IsFloat E.fb (Spec.unkProb Spec.unkText E.defaultUnk (data.getD 0 []) (a.unk.getD E.defaultUnk))) (folder : List (List Byte)) :
    ∃ binary qp qb, buildHash E a folder (some (Spec.arpaText lead gap sections tail)) = some (.ok (some binary)) ∧
      binary.head? = some (Spec.hashHeader a.choice) ∧ Spec.Quantised data pb bb qp qb ∧
      (∀ text : List (List (List Byte)), Spec.IsText text →
        (∀ l ∈ text, if a.choice.hashKeyBytes = 4 then Spec.GramsRecognised E.hs32 data l else Spec.GramsRecognised E.hs64 data l) →
        scoreMain E binary (textOf text) = some (.ok (some
          ((Spec.Arpa.ofData data (Spec.unkProb Spec.unkText E.defaultUnk (data.getD 0 []) (a.unk.getD E.defaultUnk)) qp qb).corpus text)))) ∧
      (∀ folder', testCountModelMain E binary folder' = some (.ok none)) ∧
      ∀ lines runs, 0 < runs → lookupPerfTestMain E binary lines runs = some (.ok none) := by
  obtain ⟨header, c1, -, c2, c3⟩ := C35_hash_header a.choice ha
  have hhead := C35_hash_header_byte a.choice ha header _ c1
  have hls : sections.length = data.length := by
    have := congrArg List.length hd
    unfold Spec.lines at this
    rw [List.length_map, List.length_map] at this
    exact this
  have hvc : a.choice.value ≠ "count" := by rw [hv]; decide
  have hwrite : Spec.ArpaFiles data → Spec.Quantisable data pb bb → ∀ (t : ModelT) (body : List Byte),
      E.probBody 0 sections.length (a.unk.getD E.defaultUnk) pb bb (Spec.arpaText lead gap sections tail) t = some (.ok body) →
      buildHashChoice a.choice = some (.ok (header, some t)) →
      buildHash E a folder (some (Spec.arpaText lead gap sections tail)) = some (.ok (some (saveFile header body))) := by
    intro hA hQ t body e1 e2
    have hord := hA.order_min
    have hord' := hA.order_max
    have hq1 := hQ.probs.2
    have hq2 := hQ.backoffs.2
    unfold buildHash
    rw [ho, checkOrder_ok (by omega) (by omega), Res.bind_ok, checkUnk_ok hun, Res.bind_ok, e2, Res.bind_ok, Nat.mod_eq_of_lt (a := sections.length) (by omega), ← hpb, ← hbb,
      Nat.mod_eq_of_lt (a := pb) (by omega), Nat.mod_eq_of_lt (a := bb) (by omega)]
    unfold ToolEnv.writeFile
    simp only [beq_eq_false_iff_ne.2 hvc, Bool.false_eq_true, if_false]
    rw [Res.lift_some, Res.bind_ok, e1, Res.bind_ok]
  have ht : Spec.hashType a.choice = .mphProb (8 * a.choice.hashKeyBytes) := by unfold Spec.hashType; rw [if_neg hvc]
  rw [ht] at c1 c2 c3
  simp only [Spec.isCount, Bool.false_eq_true, if_false] at c2 c3
  rcases ha.hashKeyBytes with h4 | h8
  · simp only [h4, if_true] at h hr c1 c2 c3 ⊢
    obtain ⟨m, m', qp, qb, d1, d2, e1, e2⟩ := C50_hash_backoff lead gap hg E.fb hsort E.negInf E.defaultUnk (a.unk.getD E.defaultUnk) E.extra hd h hn hcb hunk hr header
    have hbody : E.probBody 0 sections.length (a.unk.getD E.defaultUnk) pb bb (Spec.arpaText lead gap sections tail) (.mphProb (8 * 4)) =
        some (.ok (m.save E.fb E.c32 bb)) := by
      unfold ToolEnv.probBody
      simp only
      rw [if_pos (by decide), d1, Res.bind_ok]
    obtain ⟨g1, g2, g3⟩ := prob_file (E := E) (binary := saveFile header (m.save E.fb E.c32 bb)) rfl c3 c2
    refine ⟨_, qp, qb, hwrite h.arpa h.quant _ _ hbody c1, by rw [head_saved, hhead], e1, fun text hT hR => g1 _ _ ?_, g2, g3⟩
    unfold ToolEnv.scoreAs
    simp only
    rw [if_pos (by decide), d2, Option.bind_some]
    exact e2 text E.d E.one hT hR
  · have h84 : ¬ (8 : Nat) = 4 := by decide
    simp only [h8, if_neg h84] at h hr c1 c2 c3 ⊢
    obtain ⟨m, m', qp, qb, d1, d2, e1, e2⟩ := C50_hash_backoff lead gap hg E.fb hsort E.negInf E.defaultUnk (a.unk.getD E.defaultUnk) E.extra hd h hn hcb hunk hr header
    have hbody : E.probBody 0 sections.length (a.unk.getD E.defaultUnk) pb bb (Spec.arpaText lead gap sections tail) (.mphProb (8 * 8)) =
        some (.ok (m.save E.fb E.c64 bb)) := by
      unfold ToolEnv.probBody
      simp only
      rw [if_neg (by decide), if_pos (by decide), d1, Res.bind_ok]
    obtain ⟨g1, g2, g3⟩ := prob_file (E := E) (binary := saveFile header (m.save E.fb E.c64 bb)) rfl c3 c2
    refine ⟨_, qp, qb, hwrite h.arpa h.quant _ _ hbody c1, by rw [head_saved, hhead], e1, fun text hT hR => g1 _ _ ?_, g2, g3⟩
    unfold ToolEnv.scoreAs
    simp only
    rw [if_neg (by decide), if_pos (by decide), d2, Option.bind_some]
    exact e2 text E.d E.one hT hR

/-- **C69**: no file is written, whatever the inputs, for an order that is not between 2 and 8 (as a byte), a probability of `<unk>` that is not negative,
or arguments that C35 shows to be refused. -/
theorem C69_refused_trie (E : ToolEnv F) (a : TrieCommand F) (folder : List (List Byte)) (arpa : Option (List Byte))
    (h : (a.order < 2 ∨ 8 < a.order ∧ a.order < 256) ∨ (∃ u, a.unk = some u ∧ 0 ≤ u) ∨
      (a.choice.dataStructure ≠ "ef_trie" ∧ a.choice.dataStructure ≠ "pef_trie") ∨ (a.choice.value ≠ "count" ∧ a.choice.value ≠ "prob_backoff") ∨
      ∃ r, a.choice.remapping = some r ∧ 2 < r ∧ r < 256) : buildTrie E a folder arpa = some (.error ()) := by
  unfold buildTrie
  rcases h with h | h
  · have : checkOrder a.order = some (.error ()) := by
      unfold checkOrder; rw [Nat.mod_eq_of_lt (by omega), if_pos (by omega)]
    rw [this]; rfl
  rcases Decidable.em (checkOrder a.order = some (.ok ())) with ho | ho
  · rw [ho, Res.bind_ok]
    rcases h with ⟨u, h1, h2⟩ | h
    · have : checkUnk a.unk = some (.error ()) := by unfold checkUnk; rw [h1]; exact if_pos h2
      rw [this]; rfl
    rcases Decidable.em (checkUnk a.unk = some (.ok ())) with hu | hu
    · rw [hu, Res.bind_ok, C35_wrong_arguments_are_refused a.choice h]; rfl
    · have : checkUnk a.unk = some (.error ()) := by
        unfold checkUnk at hu ⊢
        split at hu
        · split at hu
          · rw [if_pos (by assumption)]
          · exact absurd rfl hu
        · exact absurd rfl hu
      rw [this]; rfl
  · have : checkOrder a.order = some (.error ()) := by
      unfold checkOrder at ho ⊢
      split at ho
      · rw [if_pos (by assumption)]
      · exact absurd rfl ho
    rw [this]; rfl

/-- **C69**: the same for `build_hash`; hash keys have 4 or 8 bytes. -/
theorem C69_refused_hash (E : ToolEnv F) (a : HashCommand F) (folder : List (List Byte)) (arpa : Option (List Byte))
    (h : (a.order < 2 ∨ 8 < a.order ∧ a.order < 256) ∨ (∃ u, a.unk = some u ∧ 0 ≤ u) ∨
      (a.choice.hashKeyBytes ≠ 4 ∧ a.choice.hashKeyBytes ≠ 8) ∨ (a.choice.value ≠ "count" ∧ a.choice.value ≠ "prob_backoff")) :
    buildHash E a folder arpa = some (.error ()) := by
  have hch : ((a.choice.hashKeyBytes ≠ 4 ∧ a.choice.hashKeyBytes ≠ 8) ∨ (a.choice.value ≠ "count" ∧ a.choice.value ≠ "prob_backoff")) →
      buildHashChoice a.choice = some (.error ()) := by
    intro h
    unfold buildHashChoice
    by_cases hk : a.choice.hashKeyBytes ≠ 4 ∧ a.choice.hashKeyBytes ≠ 8
    · rw [if_pos hk]; rfl
    · rcases h with h | h
      · exact absurd h hk
      · rw [if_neg hk]
        simp only [if_neg h.1, if_neg h.2]
        rfl
  unfold buildHash
  rcases h with h | h
  · have : checkOrder a.order = some (.error ()) := by
      unfold checkOrder; rw [Nat.mod_eq_of_lt (by omega), if_pos (by omega)]
    rw [this]; rfl
  rcases Decidable.em (checkOrder a.order = some (.ok ())) with ho | ho
  · rw [ho, Res.bind_ok]
    rcases h with ⟨u, h1, h2⟩ | h
    · have : checkUnk a.unk = some (.error ()) := by unfold checkUnk; rw [h1]; exact if_pos h2
      rw [this]; rfl
    rcases Decidable.em (checkUnk a.unk = some (.ok ())) with hu | hu
    · rw [hu, Res.bind_ok, hch h]; rfl
    · have : checkUnk a.unk = some (.error ()) := by
        unfold checkUnk at hu ⊢
        split at hu
        · split at hu
          · rw [if_pos (by assumption)]
          · exact absurd rfl hu
        · exact absurd rfl hu
      rw [this]; rfl
  · have : checkOrder a.order = some (.error ()) := by
      unfold checkOrder at ho ⊢
      split at ho
      · rw [if_pos (by assumption)]
      · exact absurd rfl ho
    rw [this]; rfl

/-- **C69**: if the file of some order up to the one asked for is not in the folder, no file is written. -/
theorem C69_missing_counts (E : ToolEnv F) (a : TrieCommand F) (ha : Spec.ValidTrieArgs a.choice) (hv : a.choice.value = "count") (h1 : 2 ≤ a.order)
    (h2 : a.order ≤ 8) (hun : ∀ u ∈ a.unk, u < 0) {folder : List (List Byte)} (hf : folder.length < a.order) (arpa : Option (List Byte)) :
    buildTrie E a folder arpa = some (.error ()) := by
  obtain ⟨header, c1, -⟩ := C35_trie_header a.choice ha
  unfold buildTrie
  rw [checkOrder_ok h1 h2, Res.bind_ok, checkUnk_ok hun, Res.bind_ok, c1, Res.bind_ok, hv, Nat.mod_eq_of_lt (a := a.order) (by omega)]
  unfold ToolEnv.writeFile gramsFiles
  simp only [beq_self_eq_true, if_true]
  rw [if_pos hf]; rfl

/-- An order, a number of bits beyond 255 is not refused: what counts is the remainder, because the parameters have 8 bits.  `build_trie ef_trie 259 count`
builds a model of order 3. -/
theorem C69_large_numbers_wrap_defect (E : ToolEnv F) (a : TrieCommand F) (folder : List (List Byte)) (arpa : Option (List Byte)) (p b : Nat) :
    buildTrie E ⟨a.choice, a.order + 256, a.unk, some (p + 256), some (b + 256)⟩ folder arpa = buildTrie E ⟨a.choice, a.order, a.unk, some p, some b⟩ folder arpa := by
  have e : ∀ n, (n + 256) % 256 = n % 256 := fun n => by omega
  unfold buildTrie checkOrder
  simp only [e, Option.getD_some]

/-- Without `--arpa`, `build_trie … prob_backoff` passes a null pointer as the name of the file: the behaviour is undefined. -/
theorem C69_no_arpa_defect (E : ToolEnv F) (a : TrieCommand F) (ha : Spec.ValidTrieArgs a.choice) (hv : a.choice.value = "prob_backoff") (h1 : 2 ≤ a.order)
    (h2 : a.order ≤ 8) (hun : ∀ u ∈ a.unk, u < 0) (folder : List (List Byte)) : buildTrie E a folder none = none := by
  obtain ⟨header, c1, -⟩ := C35_trie_header a.choice ha
  unfold buildTrie
  rw [checkOrder_ok h1 h2, Res.bind_ok, checkUnk_ok hun, Res.bind_ok, c1, Res.bind_ok, hv]
  rfl

end

namespace ToolsExample
open SaveExample EndExample FilesExample TrieProbExample

/-- An environment: hash functions of the vocabulary and the ranges of the examples of C44, 64-bit hash functions `hs`. -/
noncomputable def env (hs : Nat → Mphf (List Byte) 64) (c : Emphf (List Byte) 64) (mem : Nat) : ToolEnv ℚ where
  L := exLib
  hv := TextExample.mphf3 U
  c := codecOf [(TextExample.mphf3 U).hasher]
  hr _ := FastEF.exMphf
  c' := codec
  hs32 _ := ⟨0, 0, fun _ => (0, 0, 0), []⟩
  c32 := codecOf []
  hs64 := hs
  c64 := c
  mem := mem
  extra := 0
  ju := junkTable
  jg := ⟨ptrs, none, [1, 2]⟩
  ji := icJunk
  je := ptrs
  jp := ptrs
  jr := cvJunk
  junkU _ := [7]
  junkD _ := [9]
  junkU' _ := [1, 5]
  junkD' _ := [3]
  junk _ := [0#64]
  junk' _ := [4#64]
  past := [6#64]
  swap := true
  strtod := strtod
  fb := fb8
  sort := sortQ
  negInf := -1000
  defaultUnk := -100
  d := 7
  one := 1

theorem env_ok (hs : Nat → Mphf (List Byte) 64) (c : Emphf (List Byte) 64) (mem : Nat) : Spec.ToolEnvOk (env hs c mem) where
  sort := exLib_valid
  c := voc_read
  c' := ranges_read
  ju := junk_fits
  jg := fef_fits [1, 2] (by decide) (by decide)
  ji := PefSaveExample.ic_fits
  je := ptrs_fits
  jp := ptrs_fits
  jr := by show CompactVector.Fits cvJunk; exact ⟨by decide, by decide, by decide⟩
  junkU := by simp [env]
  junkD := by simp [env]
  junkU' := by simp [env]
  junkD' := by simp [env]
  junk := by simp [env]
  junk' := by simp [env]
  past := by simp [env]

/-- `build_trie pef_trie 2 count --ranks PSPEF` on the count files of C44's example in a folder with a third file, then `lookup_perf_test` with two queries,
in two runs: `a c` occurs twice, `c` five times; `score` refuses the file. -/
example : ∃ binary, buildTrie (env MphCountExample.hs (codecOf []) 100) ⟨⟨"pef_trie", "count", none, some "PSPEF"⟩, 2, none, none, some 3⟩
      (MphCountExample.files.map Spec.gramsText ++ [str "no file of n-grams"]) none = some (.ok (some binary)) ∧
    lookupPerfTestMain (env MphCountExample.hs (codecOf []) 100) binary ((CheckExample.queries.take 2).map (·.1)) 2 =
      some (.ok (some ⟨binary.length, 6, 2, [[2, 5], [2, 5]]⟩)) ∧
    scoreMain (env MphCountExample.hs (codecOf []) 100) binary (str "a c") = some (.ok none) := by
  obtain ⟨binary, h1, -, -, h4, -, h6⟩ := C69_count_trie_programs (env MphCountExample.hs (codecOf []) 100) (env_ok _ _ _)
    ⟨⟨"pef_trie", "count", none, some "PSPEF"⟩, 2, none, none, some 3⟩ ⟨.inr rfl, .inl rfl, by simp, by simp⟩ rfl (by simp) (files := MphCountExample.files) (by decide)
    files_trie (fun _ => CheckExample.files_pef) files_words (by simp [MphCountExample.files, Spec.maxLines]) (TextExample.built3 (keys := U) rfl (by decide)) files_hashes
    (folder := MphCountExample.files.map Spec.gramsText ++ [str "no file of n-grams"]) (by rfl) none
  refine ⟨binary, h1, h4 (CheckExample.queries.take 2) 2 (by decide) fun q hq => ?_, h6 _⟩
  obtain ⟨e1, e2⟩ := CheckExample.queries_ok (absent := fun _ => True) trivial q (List.mem_of_mem_take hq)
  simp only [CheckExample.queries, List.take_succ_cons, List.take_zero, List.mem_cons, List.not_mem_nil, or_false] at hq
  rcases hq with rfl | rfl
  · exact ⟨e1, .inl ⟨_, List.mem_of_getElem? (i := 1) rfl, by simp⟩⟩
  · exact ⟨e1, .inl ⟨_, List.mem_of_getElem? (i := 0) rfl, by simp⟩⟩

/-- `build_trie ef_trie 2 count`, and three queries: `a a` is not found. -/
example : ∃ binary, buildTrie (env MphCountExample.hs (codecOf []) 100) ⟨⟨"ef_trie", "count", none, none⟩, 2, some (-3), none, none⟩
      (MphCountExample.files.map Spec.gramsText) none = some (.ok (some binary)) ∧
    testCountModelMain (env MphCountExample.hs (codecOf []) 100) binary (MphCountExample.files.map Spec.gramsText) = some (.ok (some ⟨binary.length, 6, [[], []]⟩)) ∧
    lookupPerfTestMain (env MphCountExample.hs (codecOf []) 100) binary (CheckExample.queries.map (·.1)) 1 =
      some (.ok (some ⟨binary.length, 6, 3, [[2, 5, NF]]⟩)) := by
  obtain ⟨binary, h1, -, h3, h4, -⟩ := C69_count_trie_programs (env MphCountExample.hs (codecOf []) 100) (env_ok _ _ _)
    ⟨⟨"ef_trie", "count", none, none⟩, 2, some (-3), none, none⟩ ⟨.inl rfl, .inl rfl, by simp, by simp⟩ rfl (by simp) (files := MphCountExample.files) (by decide)
    files_trie (fun h => absurd h (by decide)) files_words (by simp [MphCountExample.files, Spec.maxLines]) (TextExample.built3 (keys := U) rfl (by decide)) files_hashes
    (folder := MphCountExample.files.map Spec.gramsText) (by rfl) none
  exact ⟨binary, h1, h3, h4 CheckExample.queries 1 (by decide) (CheckExample.queries_ok CheckExample.absent)⟩

/-- `build_hash 2 8 count`. -/
example := C69_hash_count_programs (env MphCountExample.hs (codecOf [(MphCountExample.hs 0).hasher, (MphCountExample.hs 1).hasher, (MphCountExample.hs 2).hasher]) 100)
    exLib_valid ⟨⟨"count", 8⟩, 2, none, none, none⟩ ⟨.inl rfl, .inr rfl⟩ rfl (by simp) (files := MphCountExample.files) (by decide) MphCountExample.files_ok
    (fun f hf => (files_words f hf).2) (by decide)
    ⟨fun k f hk => by
      rw [List.getElem?_map] at hk
      obtain ⟨f', h1, rfl⟩ := Option.map_eq_some_iff.1 hk
      exact MphCountExample.hs_built k f' h1, hs_read⟩ (folder := MphCountExample.files.map Spec.gramsText) (by rfl) none

/-- `build_trie pef_trie 3 prob_backoff --remapping 1 --arpa … --p 2 --b 2` on the ARPA file of C44's example, and `score` with a corpus of two sentences;
`lookup_perf_test` refuses the file. -/
example : ∃ binary, buildTrie (env MphProbExample.hs (codecOf []) 200) ⟨⟨"pef_trie", "prob_backoff", some 1, none⟩, 3, none, some 2, some 2⟩ []
      (some (Spec.arpaText 0 0 sections [nl])) = some (.ok (some binary)) ∧
    (∃ tot : Totals ℚ, scoreMain (env MphProbExample.hs (codecOf []) 200) binary (textOf corpus) = some (.ok (some tot)) ∧ tot.sentences = 2 ∧ tot.tokens = 5) ∧
    lookupPerfTestMain (env MphProbExample.hs (codecOf []) 200) binary [] 1 = some (.ok none) := by
  obtain ⟨binary, qp, qb, h1, -, -, h4, -, h6⟩ := C69_backoff_trie_programs (env MphProbExample.hs (codecOf []) 200) (env_ok _ _ _) sortQ_ok
    ⟨⟨"pef_trie", "prob_backoff", some 1, none⟩, 3, none, some 2, some 2⟩ ⟨.inr rfl, .inr rfl, by simp, by simp⟩ rfl (by simp) 0 0 (by rfl) good (pb := 2) (bb := 2) rfl rfl
    lists data_words MphProbExample.data_trie (fun _ => PefEndExample.data_pef) MphProbExample.data_input.quant (by decide) input8.floats codes8 unk8
    (TextExample.built3 (keys := U) rfl (by decide)) MphProbExample.data_hashes []
  have hsub : ∀ f ∈ MphProbExample.data, ∀ r ∈ f, ∀ w ∈ r.1, w ∈ U := by decide
  have hP : ∀ g, Spec.Listed MphProbExample.data g → Spec.PefScorable (TextExample.mphf3 U) U MphProbExample.data 1 g := by
    rintro g hg
    refine ⟨fun w hw => .inl ?_, fun x s _ _ _ hn _ => absurd hg hn⟩
    obtain ⟨f, hf, r, hr, rfl⟩ := hg
    exact hsub f hf r hr w hw
  refine ⟨binary, h1, ⟨_, h4 corpus (fun l hl => ⟨(corpus_words l hl).1, fun w hw => ((corpus_words l hl).2 w hw).1⟩) ?_, rfl, rfl⟩, h6 _ _ (by decide)⟩
  intro l hl
  rw [if_neg (by decide)]
  exact fun g hg => hP _ (PefEndExample.corpus_listed l hl g hg)

/-- `build_trie ef_trie 3 prob_backoff --remapping 1 …`. -/
example := C69_backoff_trie_programs (env MphProbExample.hs (codecOf []) 200) (env_ok _ _ _) sortQ_ok
    ⟨⟨"ef_trie", "prob_backoff", some 1, none⟩, 3, none, some 2, some 2⟩ ⟨.inl rfl, .inr rfl, by simp, by simp⟩ rfl (by simp) 0 0 (by rfl) good (pb := 2) (bb := 2) rfl rfl
    lists data_words MphProbExample.data_trie (fun h => absurd h (by decide)) MphProbExample.data_input.quant (by decide) input8.floats codes8 unk8
    (TextExample.built3 (keys := U) rfl (by decide)) MphProbExample.data_hashes []

/-- `build_hash 3 8 prob_backoff …`. -/
example := C69_hash_backoff_programs (env MphProbExample.hs (codecOf [(MphProbExample.hs 0).hasher, (MphProbExample.hs 1).hasher, (MphProbExample.hs 2).hasher,
    (MphProbExample.hs 3).hasher]) 200) sortQ_ok ⟨⟨"prob_backoff", 8⟩, 3, none, some 2, some 2⟩ ⟨.inr rfl, .inr rfl⟩ rfl (by simp) 0 0 (by rfl) good (pb := 2) (bb := 2)
    rfl rfl lists (by exact input8) hs_read'
    (by intro f hf; simp [MphProbExample.data] at hf; rcases hf with rfl | rfl | rfl <;> simp) codes8 unk8 []

end ToolsExample

end Tongrams
