import Verif.Serialization
import Verif.TrieCount
import Verif.TrieProb

/-!
# Saving and loading the four models; files

The tries of the model keep the query functions of their sequences.  Here they are given again with the sequences
themselves (`ArrayStore`, `TrieCountStore`, `TrieProbStore`): building is shown to be the same computation, and saving and
loading work on the data.
-/

set_option linter.unusedSectionVars false

namespace Tongrams

/-! ## Hash models -/

/-- `sequence_collection::save`, sequence_collections.hpp:310-314. -/
def saveCounts (cs : List CompactVector) : List Byte := putAll CompactVector.save cs

/-- `sequence_collection::load`, sequence_collections.hpp:316-321. -/
def loadCounts (order : Nat) : Rd (List CompactVector) := getN CompactVector.load order

/-- `mph_count_lm::save`, mph_count_lm.hpp:94-100. -/
def MphCount.save {B : Nat} (c : Emphf (List Byte) B) (m : MphCount B) : List Byte :=
  putU 1 m.order ++ (saveCounts m.counts ++ putAll (SVTable.save c) m.tables)

/-- `mph_count_lm::load`, mph_count_lm.hpp:102-109. -/
def MphCount.load {B : Nat} (c : Emphf (List Byte) B) : Rd (MphCount B) :=
  Rd.bind (getU 1) fun order => Rd.bind (loadCounts order) fun counts => Rd.bind (getN (SVTable.load c) order) fun tables =>
  Rd.ret ⟨order, counts, tables⟩

/-- The numbers fit their members, and there is one table and one list of counts for each order. -/
def MphCount.Fits {B : Nat} (c : Emphf (List Byte) B) (m : MphCount B) : Prop :=
  m.order < 256 ∧ m.counts.length = m.order ∧ m.tables.length = m.order ∧ (∀ x ∈ m.counts, x.Fits) ∧ ∀ t ∈ m.tables, t.Fits c

/-- C36: a saved hash count model is loaded back unchanged. -/
theorem C36_mph_count {B : Nat} (hB : B % 8 = 0) {c : Emphf (List Byte) B} {m : MphCount B} (h : m.Fits c) :
    Spec.Reads (MphCount.load c) (m.save c) m := by
  obtain ⟨h1, h2, h3, h4, h5⟩ := h
  refine .bind (getU1 h1) (.bind ?_ (.last ?_ rfl))
  · rw [loadCounts, ← h2]
    exact getN_putAll fun x hx => C36_compact_vector (h4 x hx)
  · rw [← h3]
    exact getN_putAll fun t ht => (C36_tables hB).1 t (h5 t ht)

/-- `essentials::save_pod` of a float: its 32 bits. -/
def putF {F : Type} (fb : FloatBits F) (x : F) : List Byte := putWord 4 (fb.enc x)

/-- `essentials::load_pod` of a float. -/
def getF {F : Type} (fb : FloatBits F) : Rd F := Rd.bind (getWord 32 4) fun b => Rd.ret (fb.dec b)

/-- `quantized_sequence_collection::save`, sequence_collections.hpp:165-172: the numbers of bits, without their number, then
the codebooks.  The builder gives the same number of bits `q` to all orders. -/
def saveQuantized {F : Type} (fb : FloatBits F) (q : Nat) (cs : List (List F)) : List Byte :=
  putAll (putU 1) (List.replicate cs.length q) ++ putAll (putVec (putF fb)) cs

/-- `quantized_sequence_collection::load`, sequence_collections.hpp:174-182. -/
def loadQuantized {F : Type} (fb : FloatBits F) (order : Nat) : Rd (List Nat × List (List F)) :=
  Rd.bind (getN (getU 1) order) fun qs => Rd.bind (getN (getVec (getF fb)) order) fun cs => Rd.ret (qs, cs)

/-- `mph_prob_lm::save`, mph_prob_lm.hpp:275-283; `bb` is the number of bits of the backoffs, which the model does not keep. -/
def MphProb.save {F : Type} {B : Nat} (fb : FloatBits F) (c : Emphf (List Byte) B) (bb : Nat) (m : MphProb F B) : List Byte :=
  putU 1 m.order ++ (putF fb m.unk ++ (saveQuantized fb m.pb m.ps ++ (saveQuantized fb bb m.bs ++ putAll (SVTable.save c) m.tables)))

/-- `mph_prob_lm::load`, mph_prob_lm.hpp:285-294; an order below 2 makes the number of backoffs wrap. -/
def MphProb.load {F : Type} {B : Nat} (fb : FloatBits F) (c : Emphf (List Byte) B) : Rd (MphProb F B) :=
  Rd.bind (getU 1) fun order => Rd.bind (getF fb) fun unk =>
  if order < 2 then Rd.fail else
  Rd.bind (loadQuantized fb (order - 1)) fun p => Rd.bind (loadQuantized fb (order - 2)) fun b =>
  Rd.bind (getN (SVTable.load c) order) fun tables => Rd.ret ⟨order, unk, p.2, b.2, p.1.headD 0, tables⟩

/-- The float has 32 bits: it is the float of its bits. -/
def Spec.IsFloat {F : Type} (fb : FloatBits F) (x : F) : Prop := fb.dec (fb.enc x) = x

/-- The codebooks consist of floats and fit their members. -/
def Spec.FloatLists {F : Type} (fb : FloatBits F) (cs : List (List F)) : Prop :=
  ∀ l ∈ cs, l.length < 2 ^ 64 ∧ ∀ x ∈ l, Spec.IsFloat fb x

/-- The numbers fit their members; one table, and codebooks for each order. -/
def MphProb.Fits {F : Type} {B : Nat} (fb : FloatBits F) (c : Emphf (List Byte) B) (m : MphProb F B) : Prop :=
  2 ≤ m.order ∧ m.order < 256 ∧ Spec.IsFloat fb m.unk ∧ m.pb < 256 ∧ m.ps.length = m.order - 1 ∧ m.bs.length = m.order - 2 ∧
    m.tables.length = m.order ∧ Spec.FloatLists fb m.ps ∧ Spec.FloatLists fb m.bs ∧ ∀ t ∈ m.tables, t.Fits c

theorem getF_putF {F : Type} {fb : FloatBits F} {x : F} (h : Spec.IsFloat fb x) : Spec.Reads (getF fb) (putF fb x) x :=
  .last (getWord_putWord (by omega) (fb.enc x)) (by rw [h])

theorem loadQuantized_save {F : Type} {fb : FloatBits F} {q : Nat} (hq : q < 256) {cs : List (List F)} (h : Spec.FloatLists fb cs) :
    Spec.Reads (loadQuantized fb cs.length) (saveQuantized fb q cs) (List.replicate cs.length q, cs) := by
  refine .bind (a := List.replicate cs.length q) ?_
    (.last (getN_putAll fun l hl => getVec_putVec (h l hl).1 fun x hx => getF_putF ((h l hl).2 x hx)) rfl)
  have := getN_putAll (g := getU 1) (p := putU 1) (l := List.replicate cs.length q)
    (fun x hx => getU1 (by rw [List.mem_replicate] at hx; omega))
  rwa [List.length_replicate] at this

/-- C36: a saved hash backoff model is loaded back unchanged. -/
theorem C36_mph_prob {F : Type} {B : Nat} (hB : B % 8 = 0) {fb : FloatBits F} {c : Emphf (List Byte) B} {bb : Nat} (hbb : bb < 256)
    {m : MphProb F B} (h : m.Fits fb c) : Spec.Reads (MphProb.load fb c) (m.save fb c bb) m := by
  obtain ⟨h1, h2, h3, h4, h5, h6, h7, h8, h9, h10⟩ := h
  have hp := loadQuantized_save h4 h8
  have hb := loadQuantized_save hbb h9
  rw [h5] at hp
  rw [h6] at hb
  have ht := getN_putAll fun t ht => (C36_tables hB).1 t (h10 t ht)
  rw [h7] at ht
  refine .bind (getU1 h2) (.bind (getF_putF h3) ?_)
  rw [if_neg (by omega)]
  refine .bind hp (.bind hb (.last ht ?_))
  have e : (List.replicate (m.order - 1) m.pb).headD 0 = m.pb := by
    obtain ⟨n, hn⟩ : ∃ n, m.order - 1 = n + 1 := ⟨m.order - 2, by omega⟩
    rw [hn]; rfl
  show Rd.ret (⟨m.order, m.unk, m.ps, m.bs, (List.replicate (m.order - 1) m.pb).headD 0, m.tables⟩ : MphProb F B) = Rd.ret m
  rw [e]

/-! ## Tries with their sequences -/

/-- The template parameter `Grams` with its data; `fits`: the numbers fit their members. -/
structure GramsData where
  D : Type
  build : Nat → List Nat → List Nat → Res D
  find : D → Nat → Nat → Nat → Option Nat
  save : D → List Byte
  load : Rd D
  fits : D → Prop

/-- The template parameter `Ranks` with its data; `get mem` reads when the words `mem` lie in memory after the sequence. -/
structure RanksData where
  E : Type
  build : Nat → List Nat → Res E
  get : List W → E → Nat → Option Nat
  save : E → List Byte
  load : Rd E
  fits : E → Prop

/-- Its query functions, as `buildLevels` uses them. -/
def GramsData.impl (G : GramsData) : GramsImpl where
  build ord ids ptrs := Res.bind (G.build ord ids ptrs) fun d => some (.ok (G.find d))

/-- Its query functions, as `buildLevels` uses them. -/
def RanksData.impl (R : RanksData) (mem : List W) : RanksImpl where
  build ord ranks := Res.bind (R.build ord ranks) fun d => some (.ok (R.get mem d))

/-- `fast_ef_sequence`; `junk` is what an offsets table that was not built contains. -/
def GramsData.fastEF (h : Nat → Mphf Nat 64) (c : Emphf Nat 64) (junk : UTable Nat 64) : GramsData where
  D := FastEF
  build ord ids ptrs := FastEF.build (h ord) ids ptrs
  find f b e id := f.find b e id
  save f := f.save c junk
  load := FastEF.load c
  fits f := f.Fits c ∧ junk.Fits c

/-- `indexed_codewords_sequence`. -/
def RanksData.ic : RanksData where
  E := ICSeq
  build _ ranks := Res.lift (ICSeq.build (ranks.map (BitVec.ofNat 64)))
  get _ s i := (s.get i).map BitVec.toNat
  save := ICSeq.save
  load := ICSeq.load
  fits := ICSeq.Fits

/-- `prefix_summed_sequence<ef_sequence>`. -/
def RanksData.psef : RanksData where
  E := EF
  build _ ranks := PSEF.build ranks
  get _ e i := PSEF.get e i
  save := PSEF.save
  load := PSEF.load
  fits := EF.Fits

/-- `compact_vector`. -/
def RanksData.cv : RanksData where
  E := CompactVector
  build _ ranks := Res.lift (CompactVector.buildFrom (ranks.map (BitVec.ofNat 64)))
  get mem cv i := (cv.access mem i).map BitVec.toNat
  save := CompactVector.save
  load := CompactVector.load
  fits := CompactVector.Fits

theorem GramsData.fastEF_impl (h : Nat → Mphf Nat 64) (c : Emphf Nat 64) (junk : UTable Nat 64) :
    (GramsData.fastEF h c junk).impl = GramsImpl.fastEF h := rfl

theorem RanksData.ic_impl (mem : List W) : RanksData.ic.impl mem = RanksImpl.ic := by
  unfold RanksData.impl RanksImpl.ic
  congr 1
  funext ord ranks
  show Res.bind (Res.lift (ICSeq.build _)) _ = _
  cases ICSeq.build (ranks.map (BitVec.ofNat 64)) <;> rfl

theorem RanksData.psef_impl (mem : List W) : RanksData.psef.impl mem = RanksImpl.psef := rfl

theorem RanksData.cv_impl (mem : List W) : RanksData.cv.impl mem = RanksImpl.cv fun _ => mem := by
  unfold RanksData.impl RanksImpl.cv
  congr 1
  funext ord ranks
  show Res.bind (Res.lift (CompactVector.buildFrom _)) _ = _
  cases CompactVector.buildFrom (ranks.map (BitVec.ofNat 64)) <;> rfl

/-- `sorted_array` with its sequences (sorted_array.hpp:234-239): `none` is a sequence that was not built. -/
structure ArrayStore (G : GramsData) (R : RanksData) where
  size : Nat
  grams : Option G.D
  ranks : Option R.E
  ptrs : Option EF

namespace ArrayStore
variable {G : GramsData} {R : RanksData}

/-- Its query functions. -/
def toModel (mem : List W) (a : ArrayStore G R) : SortedArray where
  size := a.size
  find b e id := a.grams.bind fun d => G.find d b e id
  ranks i := a.ranks.bind fun d => R.get mem d i
  pair i := a.ptrs.bind fun e => e.pair i

/-- `sorted_array(size)`, sorted_array.hpp:113. -/
def new (G : GramsData) (R : RanksData) (n : Nat) : ArrayStore G R := ⟨n, none, none, none⟩

/-- `buildLevel` with the sequences: trie_count_lm.hpp:47-84, trie_prob_lm.hpp:74-104, sorted_array.hpp:57-95. -/
def buildLevel {K : Type} [DecidableEq K] (voc : K → Option Nat) (check : Bool)
    (ro vocSize rankWidth : Nat) (k : Nat) (curr prev : List (List K)) (ranks : List Nat) (arrs : List (ArrayStore G R)) :
    Res (List (ArrayStore G R)) :=
  Res.bind (some (buildPointers List.dropLast curr prev)) fun ptrs =>
  Res.bind (Res.lift (curr.mapM (tokenId voc (arrs.map (toModel [])) ro))) fun ids =>
  if check = true ∧ (ro ≠ 0 ∧ ro < k) ∧ NF ∈ ids then some (.error ()) else
  Res.bind (Res.lift (packCV (ceilLog2 (BitVec.ofNat 64 (vocSize + 1))) ids)) fun ids' =>
  Res.bind (G.build (k + 1) ids' ptrs) fun f =>
  Res.bind (Res.lift (packCV rankWidth ranks)) fun ranks' =>
  Res.bind (R.build (k + 1) ranks') fun rk =>
  Res.bind (ptrs.getLast?.bind fun u => EF.build ptrs u) fun e =>
  Res.lift ((arrs[k]?).bind fun a => (arrs[k - 1]?).map fun ap =>
    (arrs.set k { a with grams := some f, ranks := some rk }).set (k - 1) { ap with ptrs := some e })

/-- `buildLevels` with the sequences: trie_count_lm.hpp:47-84, trie_prob_lm.hpp:74-104. -/
def buildLevels {K : Type} [DecidableEq K] (voc : K → Option Nat) (check : Bool) (ro vocSize : Nat) :
    Nat → List (List K) → List (List (List K) × List Nat × Nat) → List (ArrayStore G R) → Res (List (ArrayStore G R))
  | _, _, [], arrs => some (.ok arrs)
  | k, prev, (curr, ranks, w) :: rest, arrs =>
    Res.bind (buildLevel voc check ro vocSize w k curr prev ranks arrs) fun arrs' =>
      buildLevels voc check ro vocSize (k + 1) curr rest arrs'

end ArrayStore

/-- Applying a function to the result of a computation that may throw. -/
def Res.map {α β : Type} (g : α → β) (x : Res α) : Res β := Res.bind x fun a => some (.ok (g a))

theorem Res.bind_assoc {α β γ : Type} (x : Res α) (f : α → Res β) (g : β → Res γ) :
    Res.bind (Res.bind x f) g = Res.bind x fun a => Res.bind (f a) g := by
  rcases x with _ | _ | a <;> rfl

theorem Res.bind_congr {α β : Type} (x : Res α) {f g : α → Res β} (h : ∀ a, f a = g a) : Res.bind x f = Res.bind x g := by
  rw [funext h]

theorem Res.map_lift {α β : Type} (g : α → β) (x : Option α) : Res.map g (Res.lift x) = Res.lift (x.map g) := by
  cases x <;> rfl

namespace ArrayStore
variable {G : GramsData} {R : RanksData} {K : Type} [DecidableEq K]

/-- Mapping ids does not read the ranks. -/
theorem mapId_mem (arrs : List (ArrayStore G R)) (m m' : List W) (ro parent pp id : Nat) :
    mapId (arrs.map (toModel m)) ro parent pp id = mapId (arrs.map (toModel m')) ro parent pp id := by
  unfold mapId
  simp only [List.getElem?_map, Option.bind_map, Function.comp_def]
  rfl

theorem tokenId_mem (voc : K → Option Nat) (arrs : List (ArrayStore G R)) (m m' : List W) (ro : Nat) (path : List K) :
    tokenId voc (arrs.map (toModel m)) ro path = tokenId voc (arrs.map (toModel m')) ro path := by
  unfold tokenId mapIdBuild
  simp only [mapId_mem arrs m m']

theorem buildLevel_impl (mem : List W) (voc : K → Option Nat) (check : Bool) (ro vocSize rankWidth k : Nat) (curr prev : List (List K))
    (ranks : List Nat) (arrs : List (ArrayStore G R)) :
    Tongrams.buildLevel G.impl (R.impl mem) voc check ro vocSize rankWidth k curr prev ranks (arrs.map (toModel mem)) =
      Res.map (List.map (toModel mem)) (buildLevel voc check ro vocSize rankWidth k curr prev ranks arrs) := by
  unfold Tongrams.buildLevel buildLevel Res.map
  rw [funext (tokenId_mem voc arrs mem [] ro)]
  simp only [Res.bind_assoc]
  refine Res.bind_congr _ fun ptrs => Res.bind_congr _ fun ids => ?_
  split
  · rfl
  simp only [Res.bind_assoc, GramsData.impl, RanksData.impl, Res.bind_ok]
  refine Res.bind_congr _ fun ids' => Res.bind_congr _ fun f => Res.bind_congr _ fun r' => Res.bind_congr _ fun rk => Res.bind_congr _ fun e => ?_
  refine Eq.trans ?_ (Res.map_lift _ _).symm
  rw [List.getElem?_map, List.getElem?_map]
  cases arrs[k]? with
  | none => rfl
  | some a =>
    cases arrs[k - 1]? with
    | none => rfl
    | some ap =>
      simp only [Option.map_some, Option.bind_some, List.map_set]
      rfl

theorem buildLevels_impl (mem : List W) (voc : K → Option Nat) (check : Bool) (ro vocSize : Nat) :
    ∀ (rest : List (List (List K) × List Nat × Nat)) (k : Nat) (prev : List (List K)) (arrs : List (ArrayStore G R)),
    Tongrams.buildLevels G.impl (R.impl mem) voc check ro vocSize k prev rest (arrs.map (toModel mem)) =
      Res.map (List.map (toModel mem)) (buildLevels voc check ro vocSize k prev rest arrs)
  | [], _, _, _ => rfl
  | (curr, ranks, w) :: rest, k, prev, arrs => by
    unfold Tongrams.buildLevels buildLevels
    rw [buildLevel_impl]
    unfold Res.map
    simp only [Res.bind_assoc, Res.bind_ok]
    refine Res.bind_congr _ fun arrs' => ?_
    rw [buildLevels_impl mem voc check ro vocSize rest (k + 1) curr arrs']
    rfl

end ArrayStore


/-- `trie_count_lm` with its sequences: trie_count_lm.hpp:317-322 (the mapper has no data). -/
structure TrieCountStore (K : Type) (G : GramsData) (R : RanksData) where
  order : Nat
  ro : Nat
  voc : SVTable K 64
  arrs : List (ArrayStore G R)
  counts : List CompactVector

/-- `trie_prob_lm` with its sequences: trie_prob_lm.hpp:353-360. -/
structure TrieProbStore (K F : Type) (G : GramsData) (R : RanksData) where
  order : Nat
  ro : Nat
  unk : F
  voc : DVTable K 64
  arrs : List (ArrayStore G R)
  ps : List (List F)
  bs : List (List F)
  pb : Nat

namespace TrieCountStore
variable {K : Type} {G : GramsData} {R : RanksData}

/-- The model that answers queries. -/
def toModel (mem : List W) (s : TrieCountStore K G R) : TrieCount K :=
  { order := s.order, ro := s.ro, voc := fun w => (s.voc.lookup w).map BitVec.toNat, arrs := s.arrs.map (·.toModel mem), counts := s.counts }

/-- `trie_count_lm::builder` (trie_count_lm.hpp:16-91, 119-158): `TrieCount.build` keeping the sequences. -/
def build [DecidableEq K] (L : SortLib) (hv : Mphf K 64) (G : GramsData) (R : RanksData) (ro : Nat)
    (files : List (List (List K × Nat))) : Res (TrieCountStore K G R) :=
  if files.length < 2 ∨ maxOrder < files.length ∨ 2 < ro then some (.error ()) else
  Res.bind (Res.mapM (fun f => Res.lift (SeqColl.ofValues L (f.map (·.2)))) files) fun colls =>
  Res.bind (Res.mapM (fun p => Res.mapM (fun r => SeqColl.rank p.2.2 r.2) p.1) (files.zip colls)) fun rks =>
  Res.bind (Res.lift ((colls.head?.bind fun c => rks.head?.bind fun r0 =>
    packCV (ceilLog2 (BitVec.ofNat 64 (c.1.size + 1))) r0))) fun r0 =>
  Res.bind (R.build 1 r0) fun g0 =>
  Res.bind (Res.lift (files.head?.bind fun f0 => buildVocab hv (f0.filterMap (·.1.head?)))) fun t =>
  Res.bind (Res.lift files.head?) fun f0 =>
  Res.bind (ArrayStore.buildLevels (fun w => (t.lookup w).map BitVec.toNat) true ro f0.length 1 (f0.map (·.1))
    ((files.tail.map (·.map (·.1))).zip (rks.tail.zip (colls.tail.map fun c => ceilLog2 (BitVec.ofNat 64 (c.1.size + 1)))))
    ((files.map fun f => ArrayStore.new G R f.length).modifyHead fun a => { a with ranks := some g0 })) fun arrs =>
  some (.ok { order := files.length, ro := ro, voc := t, arrs := arrs, counts := colls.map (·.1) })

/-- Keeping the sequences does not change the model that is built. -/
theorem build_impl [DecidableEq K] (L : SortLib) (hv : Mphf K 64) (mem : List W) (ro : Nat) (files : List (List (List K × Nat))) :
    TrieCount.build L hv G.impl (R.impl mem) ro files = Res.map (toModel mem) (build L hv G R ro files) := by
  unfold TrieCount.build build
  split
  · rfl
  unfold Res.map
  simp only [Res.bind_assoc, Res.bind_ok, RanksData.impl]
  refine Res.bind_congr _ fun colls => Res.bind_congr _ fun rks => Res.bind_congr _ fun r0 => Res.bind_congr _ fun g0 =>
    Res.bind_congr _ fun t => Res.bind_congr _ fun f0 => ?_
  have e : ((files.map fun f => SortedArray.new f.length).modifyHead fun a => { a with ranks := R.get mem g0 }) =
      ((files.map fun f => ArrayStore.new G R f.length).modifyHead fun a => { a with ranks := some g0 }).map (ArrayStore.toModel mem) := by
    have e0 : ∀ l : List (List (List K × Nat)), l.map (fun f => SortedArray.new f.length) =
        (l.map fun f => ArrayStore.new G R f.length).map (ArrayStore.toModel mem) := by
      intro l; rw [List.map_map]; rfl
    cases files with
    | nil => rfl
    | cons f fs =>
      simp only [List.map_cons, List.modifyHead_cons, e0]
      rfl
  rw [e]
  have := ArrayStore.buildLevels_impl (G := G) (R := R) mem (fun w => (t.lookup w).map BitVec.toNat) true ro f0.length
    ((files.tail.map (·.map (·.1))).zip (rks.tail.zip (colls.tail.map fun c => ceilLog2 (BitVec.ofNat 64 (c.1.size + 1)))))
    1 (f0.map (·.1)) ((files.map fun f => ArrayStore.new G R f.length).modifyHead fun a => { a with ranks := some g0 })
  unfold RanksData.impl Res.map at this
  rw [this, Res.bind_assoc]
  rfl

end TrieCountStore

namespace TrieProbStore
variable {K F : Type} {G : GramsData} {R : RanksData}

/-- The model that answers queries. -/
def toModel (mem : List W) (s : TrieProbStore K F G R) : TrieProb K F :=
  { order := s.order, ro := s.ro, unk := s.unk, voc := s.voc, arrs := s.arrs.map (·.toModel mem), ps := s.ps, bs := s.bs, pb := s.pb }

variable [DecidableEq K] [FloatArith F]

/-- `trie_prob_lm::builder` (trie_prob_lm.hpp:20-108, 139-294): `TrieProb.build` keeping the sequences. -/
def build (fb : FloatBits F) (sort : List F → List F) (negInf : F) (unkWord : K) (default : F) (hv : Mphf K 64) (G : GramsData)
    (R : RanksData) (ro : Nat) (unk : F) (pb bb : Nat) (data : List (List (List K × F × F))) : Res (TrieProbStore K F G R) :=
  if data.length < 2 ∨ maxOrder < data.length ∨ 2 < ro then some (.error ()) else
  Res.bind (Quant.codebooks sort negInf pb bb data) fun cb =>
  Res.bind (Res.lift data.head?) fun f0 =>
  Res.bind (Res.lift (buildProbVocab fb hv (f0.filterMap (·.1.head?)) (f0.map (·.2)))) fun t =>
  Res.bind (Res.lift (TrieProb.rankLevels cb.1 cb.2 pb data.length 1 data.tail)) fun rks =>
  Res.bind (ArrayStore.buildLevels (fun w => (t.lookupPair w).map fun p => p.1.toNat) false ro f0.length 1 (f0.map (·.1.reverse))
    ((data.tail.map (·.map (·.1.reverse))).zip (rks.zip ((List.range data.tail.length).map fun i => pb + if i + 2 = data.length then 0 else bb)))
    (data.map fun f => ArrayStore.new G R f.length)) fun arrs =>
  some (.ok { order := data.length, ro := ro, unk := findUnk unkWord default f0 unk, voc := t, arrs := arrs, ps := cb.1, bs := cb.2, pb := pb })

/-- Keeping the sequences does not change the model that is built. -/
theorem build_impl (fb : FloatBits F) (sort : List F → List F) (negInf : F) (unkWord : K) (default : F) (hv : Mphf K 64)
    (mem : List W) (ro : Nat) (unk : F) (pb bb : Nat) (data : List (List (List K × F × F))) :
    TrieProb.build fb sort negInf unkWord default hv G.impl (R.impl mem) ro unk pb bb data =
      Res.map (toModel mem) (build fb sort negInf unkWord default hv G R ro unk pb bb data) := by
  unfold TrieProb.build build
  split
  · rfl
  unfold Res.map
  simp only [Res.bind_assoc, Res.bind_ok]
  refine Res.bind_congr _ fun cb => Res.bind_congr _ fun f0 => Res.bind_congr _ fun t => Res.bind_congr _ fun rks => ?_
  have e : (data.map fun f => SortedArray.new f.length) = (data.map fun f => ArrayStore.new G R f.length).map (ArrayStore.toModel mem) := by
    rw [List.map_map]; rfl
  rw [e, ArrayStore.buildLevels_impl]
  unfold Res.map
  rw [Res.bind_assoc]
  rfl

end TrieProbStore

/-! ## Saving and loading tries -/

/-- What the sequences that were not built contain; in the theorems it is arbitrary.  (`ef_sequence` and `fast_ef_sequence` start
empty, ef_sequence.hpp:10, fast_ef_sequence.hpp:24; the numbers in an `mphf` are left uninitialised, mphf.hpp:18.) -/
structure Junk (G : GramsData) (R : RanksData) where
  grams : G.D
  ranks : R.E
  ptrs : EF

namespace ArrayStore
variable {G : GramsData} {R : RanksData}

/-- `sorted_array::save`, sorted_array.hpp:188-209; `withRanks`: the value type is not `none`. -/
def save (j : Junk G R) (order : Nat) (withRanks : Bool) (a : ArrayStore G R) : List Byte :=
  putU 8 a.size ++ ((if order ≠ 1 then G.save (a.grams.getD j.grams) else []) ++
    ((if withRanks then R.save (a.ranks.getD j.ranks) else []) ++ (a.ptrs.getD j.ptrs).save))

/-- `sorted_array::load`, sorted_array.hpp:211-232. -/
def load (G : GramsData) (R : RanksData) (order : Nat) (withRanks : Bool) : Rd (ArrayStore G R) :=
  Rd.bind (getU 8) fun size =>
  Rd.bind (if order ≠ 1 then Rd.bind G.load fun d => Rd.ret (some d) else Rd.ret none) fun grams =>
  Rd.bind (if withRanks then Rd.bind R.load fun d => Rd.ret (some d) else Rd.ret none) fun ranks =>
  Rd.bind EF.load fun ptrs => Rd.ret ⟨size, grams, ranks, some ptrs⟩

/-- The loop of the tries' `save` from order `k`, trie_count_lm.hpp:299-301, trie_prob_lm.hpp:333-335. -/
def saveFrom (j : Junk G R) : Nat → List (ArrayStore G R) → List Byte
  | _, [] => []
  | k, a :: as => a.save j k true ++ saveFrom j (k + 1) as

/-- The loop of the tries' `load`, for `n` orders from `k`, trie_count_lm.hpp:311-313, trie_prob_lm.hpp:347-349. -/
def loadFrom (G : GramsData) (R : RanksData) : Nat → Nat → Rd (List (ArrayStore G R))
  | _, 0 => Rd.ret []
  | k, n + 1 => Rd.bind (load G R k true) fun a => Rd.bind (loadFrom G R (k + 1) n) fun as => Rd.ret (a :: as)

/-- `m_arrays.front().save(os, 1, ..)` and the loop, trie_count_lm.hpp:298-301, trie_prob_lm.hpp:332-335; there is at least one
order. -/
def saveAll (j : Junk G R) (firstRanks : Bool) : List (ArrayStore G R) → List Byte
  | [] => []
  | a :: as => a.save j 1 firstRanks ++ saveFrom j 2 as

/-- The arrays in the tries' `load`, trie_count_lm.hpp:309-313, trie_prob_lm.hpp:345-349; `front()` of no array is undefined. -/
def loadAll (G : GramsData) (R : RanksData) (firstRanks : Bool) : Nat → Rd (List (ArrayStore G R))
  | 0 => Rd.fail
  | n + 1 => Rd.bind (load G R 1 firstRanks) fun a => Rd.bind (loadFrom G R 2 n) fun as => Rd.ret (a :: as)

end ArrayStore

/-- `trie_count_lm::save`, trie_count_lm.hpp:293-302. -/
def TrieCountStore.save {K : Type} {G : GramsData} {R : RanksData} (c : Emphf K 64) (j : Junk G R) (s : TrieCountStore K G R) : List Byte :=
  putU 1 s.order ++ (putU 1 s.ro ++ (saveCounts s.counts ++ (s.voc.save c ++ ArrayStore.saveAll j true s.arrs)))

/-- `trie_count_lm::load`, trie_count_lm.hpp:304-314. -/
def TrieCountStore.load {K : Type} (G : GramsData) (R : RanksData) (c : Emphf K 64) : Rd (TrieCountStore K G R) :=
  Rd.bind (getU 1) fun order => Rd.bind (getU 1) fun ro => Rd.bind (loadCounts order) fun counts => Rd.bind (SVTable.load c) fun voc =>
  Rd.bind (ArrayStore.loadAll G R true order) fun arrs => Rd.ret ⟨order, ro, voc, arrs, counts⟩

/-- `trie_prob_lm::save`, trie_prob_lm.hpp:325-336; `bb` is the number of bits of the backoffs, which the model does not keep. -/
def TrieProbStore.save {K F : Type} {G : GramsData} {R : RanksData} (fb : FloatBits F) (c : Emphf K 64) (j : Junk G R) (bb : Nat)
    (s : TrieProbStore K F G R) : List Byte :=
  putU 1 s.order ++ (putU 1 s.ro ++ (putF fb s.unk ++ (saveQuantized fb s.pb s.ps ++ (saveQuantized fb bb s.bs ++ (s.voc.save c ++
    ArrayStore.saveAll j false s.arrs)))))

/-- `trie_prob_lm::load`, trie_prob_lm.hpp:338-350; an order below 2 makes the number of backoffs wrap. -/
def TrieProbStore.load {K F : Type} (G : GramsData) (R : RanksData) (fb : FloatBits F) (c : Emphf K 64) : Rd (TrieProbStore K F G R) :=
  Rd.bind (getU 1) fun order => Rd.bind (getU 1) fun ro => Rd.bind (getF fb) fun unk =>
  if order < 2 then Rd.fail else
  Rd.bind (loadQuantized fb (order - 1)) fun p => Rd.bind (loadQuantized fb (order - 2)) fun b => Rd.bind (DVTable.load c) fun voc =>
  Rd.bind (ArrayStore.loadAll G R false order) fun arrs => Rd.ret ⟨order, ro, unk, voc, arrs, p.2, b.2, p.1.headD 0⟩

/-- `util::save(header, data_structure, output_filename)`, util.hpp:399-410: the bytes of the file. -/
def saveFile (header : Byte) (body : List Byte) : List Byte := putWord 1 header ++ body

/-- `util::load(data_structure, binary_filename)`, util.hpp:412-426: the header is skipped; the structure and the number of
bytes read (`tellg`). -/
def loadFile {α : Type} (g : Rd α) (file : List Byte) : Option (α × Nat) :=
  (Rd.bind (getWord 8 1) (fun _ => g) file).map fun p => (p.1, file.length - p.2.length)

end Tongrams
