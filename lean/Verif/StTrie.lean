import Verif.TrieCount

/-!
# Count tries whose sequences change when they are queried

`uniform_pef_sequence` answers queries with an enumerator that is a member of the sequence, so a lookup in a trie that
uses it changes the trie (`lookup`, `position`, `find`, `operator[]` are not `const`).  Here the functions of
`Verif.Trie` and `Verif.TrieCount` are modelled again with that state: the arrays of the trie are threaded through every
call, in the building of the trie (context remapping searches the arrays built so far) and in its queries.

`Refines` below relates the two models: where the stateless functions over "ideal" sequences are defined, the stateful
ones return the same value, provided that each stateful sequence simulates its ideal.
-/

set_option linter.unusedSectionVars false

namespace Tongrams

/-- The template parameter `Grams` with its state `S`: `build(begin, n, pointers, order)` gives the initial state,
`find s b e id` is `find({b, e}, id, &pos)` in the state `s`: the value of `pos` and the new state. -/
structure GramsSt where
  S : Type
  build : Nat → List Nat → List Nat → Res S
  find : S → Nat → Nat → Nat → Option (Nat × S)

/-- The template parameter `Ranks` with its state `T`: `build(begin, n, order)` and `operator[](i)`. -/
structure RanksSt where
  T : Type
  build : Nat → List Nat → Res T
  get : T → Nat → Option (Nat × T)

/-- A gram sequence that queries do not change. -/
def GramsImpl.st (G : GramsImpl) : GramsSt where
  S := Nat → Nat → Nat → Option Nat
  build := G.build
  find f b e id := (f b e id).map fun r => (r, f)

/-- A rank sequence that queries do not change. -/
def RanksImpl.st (R : RanksImpl) : RanksSt where
  T := Nat → Option Nat
  build := R.build
  get g i := (g i).map fun r => (r, g)

/-- `sorted_array` (sorted_array.hpp:7-240): the size, the sequences (`none` before they are built) and the pointers. -/
structure StArray (G : GramsSt) (R : RanksSt) where
  size : Nat
  grams : Option G.S
  ranks : Option R.T
  ptrs : Option EF

/-- `m_pointers[pos]` (sorted_array.hpp:115-118); undefined before the pointers are built. -/
def StArray.pair {G : GramsSt} {R : RanksSt} (a : StArray G R) (pos : Nat) : Option (Nat × Nat) := a.ptrs.bind fun e => e.pair pos

/-- `sorted_array(size)` (sorted_array.hpp:113): nothing built yet. -/
def StArray.new {G : GramsSt} {R : RanksSt} (n : Nat) : StArray G R := ⟨n, none, none, none⟩

/-- A computation that reads and changes the arrays of a trie. -/
abbrev St (G : GramsSt) (R : RanksSt) (α : Type) := List (StArray G R) → Option (α × List (StArray G R))

namespace St
variable {G : GramsSt} {R : RanksSt}

/-- No effect. -/
def pure {α : Type} (a : α) : St G R α := fun A => some (a, A)

/-- Undefined behaviour. -/
def fail {α : Type} : St G R α := fun _ => none

/-- A computation that does not touch the arrays. -/
def lift {α : Type} (x : Option α) : St G R α := fun A => x.map fun a => (a, A)

/-- Sequencing. -/
def bind {α β : Type} (x : St G R α) (f : α → St G R β) : St G R β := fun A => (x A).bind fun r => f r.1 r.2

/-- The same computation for each element in turn. -/
def mapM {α β : Type} (f : α → St G R β) : List α → St G R (List β)
  | [] => pure []
  | a :: l => bind (f a) fun b => bind (mapM f l) fun bs => pure (b :: bs)

/-- `m_arrays[i].range(pos)` (sorted_array.hpp:115-118). -/
def range (i pos : Nat) : St G R (Nat × Nat) := fun A => (A[i]?).bind fun a => (a.pair pos).map fun r => (r, A)

/-- `m_arrays[i].position(r, id)` (sorted_array.hpp:139-143). -/
def position (i : Nat) (r : Nat × Nat) (id : Nat) : St G R Nat := fun A =>
  (A[i]?).bind fun a => a.grams.bind fun s => (G.find s r.1 r.2 id).map fun p => (p.1, A.set i { a with grams := some p.2 })

/-- `m_arrays[i].count_rank(pos)` (sorted_array.hpp:129-132). -/
def rank (i pos : Nat) : St G R Nat := fun A =>
  (A[i]?).bind fun a => a.ranks.bind fun t => (R.get t pos).map fun p => (p.1, A.set i { a with ranks := some p.2 })

/-- `m_arrays[i].next(r, id)` (sorted_array.hpp:120-127): the position and the updated range. -/
def next (i : Nat) (r : Nat × Nat) (id : Nat) : St G R (Nat × (Nat × Nat)) :=
  bind (position i r id) fun pos => if pos = NF then pure (NF, r) else bind (range i pos) fun r' => pure (pos, r')

/-- `sorted_array_mapper::map_id(range, id, ngrams)` (mappers.hpp:117-128). -/
def mapIn (i : Nat) (r : Nat × Nat) (id : Nat) : St G R Nat :=
  bind (position i r id) fun pos => pure (if pos = NF then NF else pos - r.1)

/-- `sorted_array_mapper::map_id(parent_id, parent_parent_id, id, unigrams, remapping_order)` (mappers.hpp:69-81; the
same in 102-114 and 232-237). -/
def mapId (ro parent parentParent id : Nat) : St G R Nat :=
  bind (if ro = 1 then range 0 parent
    else bind (range 0 parentParent) fun r => bind (next 1 r parent) fun p => pure p.2) fun r =>
  mapIn ro r id

/-- `sorted_array_mapper::map_id(gram, id, vocab, unigrams, remapping_order, reversed)` (mappers.hpp:83-115). -/
def mapIdBuild {K : Type} (voc : K → Option Nat) (ro : Nat) (path : List K) (id : Nat) : St G R Nat :=
  bind (lift (path[path.length - 1 - ro]?)) fun w => bind (lift (voc w)) fun parent =>
  if ro = 2 then
    bind (lift (path[path.length - 2]?)) fun w' => bind (lift (voc w')) fun nextId => mapId 2 nextId parent id
  else mapId ro parent 0 id

/-- The id stored for an n-gram (trie_count_lm.hpp:215-237). -/
def tokenId {K : Type} (voc : K → Option Nat) (ro : Nat) (path : List K) : St G R Nat :=
  bind (lift path.getLast?) fun t => bind (lift (voc t)) fun id =>
  if ro ≠ 0 ∧ path.length > ro + 1 then mapIdBuild voc ro path id else pure id

/-- `map_query` (mappers.hpp:14-62 for the identity mapper, 130-223 for the sorted array mapper), on the words of the
query; see `TrieCount.mapQueryLoop`. -/
def mapQueryLoop {K : Type} (voc : K → Option Nat) (ro : Nat) : List K → Nat → List Nat → List Nat → St G R (Option (List Nat))
  | [], _, _, wids => pure (some wids)
  | w :: ws, order, raw, wids =>
    if ro ≠ 0 ∧ maxOrder ≤ order then fail else
    bind (lift (voc w)) fun id =>
    if id = NF then pure none else
    if maxOrder ≤ order then fail else
    if ro = 0 ∨ order < 2 ∨ (order = 2 ∧ ro = 2) then mapQueryLoop voc ro ws (order + 1) (raw ++ [id]) (wids ++ [id])
    else bind (lift (raw[order - 1]?)) fun parent => bind (lift (raw[order - ro]?)) fun pp =>
      bind (mapId ro parent pp id) fun m =>
      if m = NF then pure none else mapQueryLoop voc ro ws (order + 1) (raw ++ [id]) (wids ++ [m])

/-- The loop of `lookup` (trie_count_lm.hpp:275-281). -/
def descend : List Nat → Nat → Nat → St G R Nat
  | [], _, pos => pure pos
  | w :: ws, i, pos =>
    bind (range (i - 1) pos) fun r => bind (position i r w) fun p =>
    if p = NF then pure NF else descend ws (i + 1) p

end St

/-- One iteration of the loop over the orders (trie_count_lm.hpp:47-84) for the order with index `k = ord - 1`; see
`buildLevel`. -/
def buildLevelSt {K : Type} [DecidableEq K] (G : GramsSt) (R : RanksSt) (voc : K → Option Nat) (check : Bool)
    (ro vocSize rankWidth : Nat) (k : Nat) (curr prev : List (List K)) (ranks : List Nat) (arrs : List (StArray G R)) :
    Res (List (StArray G R)) :=
  Res.bind (some (buildPointers List.dropLast curr prev)) fun ptrs =>
  Res.bind (Res.lift (St.mapM (St.tokenId voc ro) curr arrs)) fun p =>
  if check = true ∧ (ro ≠ 0 ∧ ro < k) ∧ NF ∈ p.1 then some (.error ()) else
  Res.bind (Res.lift (packCV (ceilLog2 (BitVec.ofNat 64 (vocSize + 1))) p.1)) fun ids' =>
  Res.bind (G.build (k + 1) ids' ptrs) fun s =>
  Res.bind (Res.lift (packCV rankWidth ranks)) fun ranks' =>
  Res.bind (R.build (k + 1) ranks') fun t =>
  Res.bind (ptrs.getLast?.bind fun u => EF.build ptrs u) fun e =>
  Res.lift ((p.2[k]?).bind fun a => (p.2[k - 1]?).map fun ap =>
    (p.2.set k { a with grams := some s, ranks := some t }).set (k - 1) { ap with ptrs := some e })

/-- The loop over the orders 2, 3, … (trie_count_lm.hpp:47-84); see `buildLevels`. -/
def buildLevelsSt {K : Type} [DecidableEq K] (G : GramsSt) (R : RanksSt) (voc : K → Option Nat) (check : Bool)
    (ro vocSize : Nat) :
    Nat → List (List K) → List (List (List K) × List Nat × Nat) → List (StArray G R) → Res (List (StArray G R))
  | _, _, [], arrs => some (.ok arrs)
  | k, prev, (curr, ranks, w) :: rest, arrs =>
    Res.bind (buildLevelSt G R voc check ro vocSize w k curr prev ranks arrs) fun arrs' =>
      buildLevelsSt G R voc check ro vocSize (k + 1) curr rest arrs'

/-- `trie_count_lm` (trie_count_lm.hpp:319-324): the arrays are the only members a query changes. -/
structure StCount (K : Type) (G : GramsSt) (R : RanksSt) where
  order : Nat
  ro : Nat
  voc : SVTable K 64
  arrs : List (StArray G R)
  counts : List CompactVector

namespace StCount
variable {K : Type} {G : GramsSt} {R : RanksSt}

/-- `builder(input_dir, order, remapping_order)` and `build(trie)` (trie_count_lm.hpp:14-99); see `TrieCount.build`. -/
def build [DecidableEq K] (L : SortLib) (hv : Mphf K 64) (G : GramsSt) (R : RanksSt) (ro : Nat)
    (files : List (List (List K × Nat))) : Res (StCount K G R) :=
  if files.length < 2 ∨ maxOrder < files.length ∨ 2 < ro then some (.error ()) else
  Res.bind (Res.mapM (fun f => Res.lift (SeqColl.ofValues L (f.map (·.2)))) files) fun colls =>
  Res.bind (Res.mapM (fun p => Res.mapM (fun r => SeqColl.rank p.2.2 r.2) p.1) (files.zip colls)) fun rks =>
  Res.bind (Res.lift ((colls.head?.bind fun c => rks.head?.bind fun r0 =>
    packCV (ceilLog2 (BitVec.ofNat 64 (c.1.size + 1))) r0))) fun r0 =>
  Res.bind (R.build 1 r0) fun t0 =>
  Res.bind (Res.lift (files.head?.bind fun f0 => buildVocab hv (f0.filterMap (·.1.head?)))) fun t =>
  Res.bind (Res.lift files.head?) fun f0 =>
  Res.bind (buildLevelsSt G R (fun w => (t.lookup w).map BitVec.toNat) true ro f0.length 1 (f0.map (·.1))
    ((files.tail.map (·.map (·.1))).zip (rks.tail.zip (colls.tail.map fun c => ceilLog2 (BitVec.ofNat 64 (c.1.size + 1)))))
    ((files.map fun f => StArray.new f.length).modifyHead fun a => { a with ranks := some t0 })) fun arrs =>
  some (.ok { order := files.length, ro := ro, voc := t, arrs := arrs,
              counts := colls.map (·.1) })

/-- `lookup(gram, adaptor)` (trie_count_lm.hpp:263-285) on the words of the gram: the answer and the trie after the
call; see `TrieCount.lookup`. -/
def lookup (t : StCount K G R) (words : List K) : Option (Nat × StCount K G R) :=
  (St.bind (St.mapQueryLoop (fun w => (t.voc.lookup w).map BitVec.toNat) t.ro words 0 [] []) (fun
    | none => St.pure NF
    | some [] => St.fail
    | some (w0 :: wids) =>
      if wids.length > t.order then St.pure NF else
      St.bind (St.descend wids 1 w0) fun pos =>
      if pos = NF then St.pure NF else
      St.bind (St.rank wids.length pos) fun rank =>
      St.bind (St.lift (t.counts[wids.length]?)) fun cv => St.lift (SeqColl.access cv rank)) t.arrs).map fun p =>
  (p.1, { t with arrs := p.2 })

/-- The answers to a list of lookups made one after the other on the same trie, and the trie after them. -/
def lookups (t : StCount K G R) : List (List K) → Option (List Nat × StCount K G R)
  | [] => some ([], t)
  | q :: qs => (t.lookup q).bind fun r => (lookups r.2 qs).map fun s => (r.1 :: s.1, s.2)

end StCount

/-! ## Refinement -/

/-- The state `o` of a gram sequence answers every search that `f` answers, with the same value, now and after any
such searches. -/
def GramsSt.Sim (G : GramsSt) (f : Nat → Nat → Nat → Option Nat) (o : Option G.S) : Prop :=
  ∃ P : Option G.S → Prop, P o ∧ ∀ o b e id r, P o → f b e id = some r →
    ∃ s s', o = some s ∧ G.find s b e id = some (r, s') ∧ P (some s')

/-- The same for the ranks. -/
def RanksSt.Sim (R : RanksSt) (g : Nat → Option Nat) (o : Option R.T) : Prop :=
  ∃ P : Option R.T → Prop, P o ∧ ∀ o i r, P o → g i = some r → ∃ t t', o = some t ∧ R.get t i = some (r, t') ∧ P (some t')

section
variable {G : GramsSt} {R : RanksSt}

/-- A stateful array simulates an ideal one. -/
structure StArray.Sim (a : SortedArray) (b : StArray G R) : Prop where
  size : b.size = a.size
  grams : G.Sim a.find b.grams
  ranks : R.Sim a.ranks b.ranks
  pair : ∀ i r, a.pair i = some r → b.pair i = some r

/-- So do lists of them. -/
def ArrSim (A : List SortedArray) (B : List (StArray G R)) : Prop :=
  A.length = B.length ∧ ∀ (i : Nat) (a : SortedArray) (b : StArray G R), A[i]? = some a → B[i]? = some b → b.Sim a

theorem ArrSim.get {A : List SortedArray} {B : List (StArray G R)} (h : ArrSim A B) {i : Nat} {a : SortedArray} (ha : A[i]? = some a) :
    ∃ b, B[i]? = some b ∧ b.Sim a := by
  have hi := (List.getElem?_eq_some_iff.1 ha).1
  have hb : B[i]? = some (B[i]'(by rw [← h.1]; exact hi)) := List.getElem?_eq_getElem _
  exact ⟨_, hb, h.2 i a _ ha hb⟩

theorem ArrSim.set {A : List SortedArray} {B : List (StArray G R)} (h : ArrSim A B) {i : Nat} {a : SortedArray} {b : StArray G R}
    (hab : b.Sim a) : ArrSim (A.set i a) (B.set i b) := by
  refine ⟨by rw [List.length_set, List.length_set, h.1], ?_⟩
  intro j x y hx hy
  rw [List.getElem?_set] at hx hy
  by_cases hij : i = j
  · subst hij
    rw [if_pos rfl] at hx hy
    split at hx
    · split at hy
      · cases hx; cases hy; exact hab
      · cases hy
    · cases hx
  · rw [if_neg hij] at hx hy
    exact h.2 j x y hx hy

theorem ArrSim.setRight {A : List SortedArray} {B : List (StArray G R)} (h : ArrSim A B) {i : Nat} {a : SortedArray} {b : StArray G R}
    (ha : A[i]? = some a) (hab : b.Sim a) : ArrSim A (B.set i b) := by
  have := h.set (i := i) hab
  obtain ⟨hi, rfl⟩ := List.getElem?_eq_some_iff.1 ha
  rwa [List.set_getElem_self] at this

/-- Where `x` is defined, `m` gives the same value, on arrays that simulate `A`, and leaves them such. -/
def Refines (A : List SortedArray) {α : Type} (x : Option α) (m : St G R α) : Prop :=
  ∀ v, x = some v → ∀ B, ArrSim A B → ∃ B', m B = some (v, B') ∧ ArrSim A B'

variable {A : List SortedArray} {α β : Type}

theorem Refines.pure (a : α) : Refines A (some a) (St.pure a : St G R α) := by
  intro v hv B hB
  cases hv
  exact ⟨B, rfl, hB⟩

theorem Refines.none {m : St G R α} : Refines A none m := fun v hv => by cases hv

theorem Refines.lift (x : Option α) : Refines A x (St.lift x : St G R α) := by
  intro v hv B hB
  exact ⟨B, by rw [St.lift, hv]; rfl, hB⟩

theorem Refines.bind {x : Option α} {m : St G R α} {f : α → Option β} {g : α → St G R β} (h : Refines A x m)
    (hf : ∀ v, Refines A (f v) (g v)) : Refines A (x.bind f) (St.bind m g) := by
  intro v hv B hB
  obtain ⟨u, hu, hfu⟩ := Option.bind_eq_some_iff.1 hv
  obtain ⟨B1, e1, h1⟩ := h u hu B hB
  obtain ⟨B2, e2, h2⟩ := hf u v hfu B1 h1
  exact ⟨B2, by rw [St.bind, e1, Option.bind_some]; exact e2, h2⟩

theorem Refines.map {x : Option α} {m : St G R α} {f : α → β} (h : Refines A x m) :
    Refines A (x.map f) (St.bind m fun v => St.pure (f v)) := by
  rw [Option.map_eq_bind]
  exact h.bind fun v => Refines.pure (f v)

theorem Refines.ite {c : Prop} [Decidable c] {x y : Option α} {m n : St G R α} (h1 : Refines A x m) (h2 : Refines A y n) :
    Refines A (if c then x else y) (if c then m else n) := by
  split
  · exact h1
  · exact h2

theorem Refines.range (i pos : Nat) :
    Refines A ((A[i]?).bind fun a => a.range pos) (St.range i pos : St G R _) := by
  intro v hv B hB
  obtain ⟨a, ha, hr⟩ := Option.bind_eq_some_iff.1 hv
  obtain ⟨b, hb, hs⟩ := hB.get ha
  refine ⟨B, ?_, hB⟩
  rw [St.range, hb, Option.bind_some, hs.pair pos v hr, Option.map_some]

theorem Refines.position (i : Nat) (r : Nat × Nat) (id : Nat) :
    Refines A ((A[i]?).bind fun a => a.position r id) (St.position i r id : St G R _) := by
  intro v hv B hB
  obtain ⟨a, ha, hr⟩ := Option.bind_eq_some_iff.1 hv
  obtain ⟨b, hb, hs⟩ := hB.get ha
  obtain ⟨P, hP, hstep⟩ := hs.grams
  obtain ⟨s, s', e1, e2, hP'⟩ := hstep _ _ _ _ _ hP hr
  refine ⟨B.set i { b with grams := some s' }, ?_, hB.setRight ha ⟨hs.size, ⟨P, hP', hstep⟩, hs.ranks, hs.pair⟩⟩
  rw [St.position, hb, Option.bind_some, e1, Option.bind_some, e2, Option.map_some]

theorem Refines.rank (i pos : Nat) :
    Refines A ((A[i]?).bind fun a => a.ranks pos) (St.rank i pos : St G R _) := by
  intro v hv B hB
  obtain ⟨a, ha, hr⟩ := Option.bind_eq_some_iff.1 hv
  obtain ⟨b, hb, hs⟩ := hB.get ha
  obtain ⟨P, hP, hstep⟩ := hs.ranks
  obtain ⟨s, s', e1, e2, hP'⟩ := hstep _ _ _ hP hr
  refine ⟨B.set i { b with ranks := some s' }, ?_, hB.setRight ha ⟨hs.size, hs.grams, ⟨P, hP', hstep⟩, hs.pair⟩⟩
  rw [St.rank, hb, Option.bind_some, e1, Option.bind_some, e2, Option.map_some]

theorem Refines.next (i : Nat) (r : Nat × Nat) (id : Nat) :
    Refines A ((A[i]?).bind fun a => a.next r id) (St.next i r id : St G R _) := by
  have e : ((A[i]?).bind fun a => a.next r id) = ((A[i]?).bind fun a => a.position r id).bind fun pos =>
      if pos = NF then some (NF, r) else ((A[i]?).bind fun a => a.range pos).map fun r' => (pos, r') := by
    cases A[i]? with
    | none => rfl
    | some a => simp only [Option.bind_some]; rfl
  rw [e]
  exact (Refines.position i r id).bind fun pos => (Refines.pure _).ite (Refines.range i pos).map

theorem Refines.mapIn (i : Nat) (r : Nat × Nat) (id : Nat) :
    Refines A ((A[i]?).bind fun a => Tongrams.mapIn a r id) (St.mapIn i r id : St G R _) := by
  have e : ((A[i]?).bind fun a => Tongrams.mapIn a r id) =
      ((A[i]?).bind fun a => a.position r id).map fun pos => if pos = NF then NF else pos - r.1 := by
    cases A[i]? with
    | none => rfl
    | some a => rfl
  rw [e]
  exact (Refines.position i r id).map

theorem Refines.mapId (ro parent parentParent id : Nat) :
    Refines A (Tongrams.mapId A ro parent parentParent id) (St.mapId ro parent parentParent id : St G R _) := by
  have e : Tongrams.mapId A ro parent parentParent id =
      (if ro = 1 then (A[0]?).bind fun a0 => a0.range parent
        else ((A[0]?).bind fun a0 => a0.range parentParent).bind fun r => ((A[1]?).bind fun a1 => a1.next r parent).map (·.2)).bind fun r =>
      (A[ro]?).bind fun a => Tongrams.mapIn a r id := by
    unfold Tongrams.mapId
    cases A[0]? with
    | none => split <;> rfl
    | some a0 =>
      simp only [Option.bind_some]
      congr 1
      split
      · rfl
      · congr 1
        funext r
        cases A[1]? with
        | none => rfl
        | some a1 => rfl
  rw [e]
  refine Refines.bind (Refines.ite (Refines.range 0 parent) ?_) fun r => Refines.mapIn ro r id
  exact (Refines.range 0 parentParent).bind fun r => (Refines.next 1 r parent).map

theorem Refines.mapIdBuild {K : Type} (voc : K → Option Nat) (ro : Nat) (path : List K) (id : Nat) :
    Refines A (Tongrams.mapIdBuild voc A ro path id) (St.mapIdBuild voc ro path id : St G R _) := by
  refine (Refines.lift _).bind fun w => (Refines.lift _).bind fun parent => Refines.ite ?_ (Refines.mapId ro parent 0 id)
  exact (Refines.lift _).bind fun w' => (Refines.lift _).bind fun nextId => Refines.mapId 2 nextId parent id

theorem Refines.tokenId {K : Type} (voc : K → Option Nat) (ro : Nat) (path : List K) :
    Refines A (Tongrams.tokenId voc A ro path) (St.tokenId voc ro path : St G R _) :=
  (Refines.lift _).bind fun _ => (Refines.lift _).bind fun id => (Refines.mapIdBuild voc ro path id).ite (Refines.pure id)

theorem Refines.mapM {f : α → Option β} {g : α → St G R β} (h : ∀ a, Refines A (f a) (g a)) (l : List α) :
    Refines A (l.mapM f) (St.mapM g l) := by
  induction l with
  | nil => exact Refines.pure []
  | cons a l ih =>
    rw [List.mapM_cons]
    exact (h a).bind fun b => ih.bind fun bs => Refines.pure _

theorem Refines.mapQueryLoop {K : Type} (voc : K → Option Nat) (ro : Nat) (ws : List K) : ∀ (order : Nat) (raw wids : List Nat),
    Refines A (TrieCount.mapQueryLoop voc A ro ws order raw wids) (St.mapQueryLoop voc ro ws order raw wids : St G R _) := by
  induction ws with
  | nil => intro order raw wids; exact Refines.pure _
  | cons w ws ih =>
    intro order raw wids
    unfold TrieCount.mapQueryLoop St.mapQueryLoop
    refine Refines.none.ite ((Refines.lift _).bind fun id => (Refines.pure _).ite (Refines.none.ite ((ih _ _ _).ite ?_)))
    exact (Refines.lift _).bind fun parent => (Refines.lift _).bind fun pp => (Refines.mapId ro parent pp id).bind fun m =>
      (Refines.pure _).ite (ih _ _ _)

theorem Refines.descend (ws : List Nat) : ∀ i pos : Nat,
    Refines A (TrieCount.descend A ws i pos) (St.descend ws i pos : St G R _) := by
  induction ws with
  | nil => intro i pos; exact Refines.pure _
  | cons w ws ih =>
    intro i pos
    have e : TrieCount.descend A (w :: ws) i pos = ((A[i - 1]?).bind fun a => a.range pos).bind fun r =>
        ((A[i]?).bind fun a => a.position r w).bind fun p => if p = NF then some NF else TrieCount.descend A ws (i + 1) p := by
      rw [TrieCount.descend, Option.bind_assoc]
      congr 1; funext a; congr 1; funext r
      rw [Option.bind_assoc]
    rw [e]
    exact (Refines.range _ _).bind fun r => (Refines.position _ _ _).bind fun p => (Refines.pure _).ite (ih _ _)

/-- A stateful trie simulates an ideal one. -/
structure StCount.Sim {K : Type} (t : TrieCount K) (t' : StCount K G R) : Prop where
  order : t'.order = t.order
  ro : t'.ro = t.ro
  voc : (fun w => (t'.voc.lookup w).map BitVec.toNat) = t.voc
  counts : t'.counts = t.counts
  arrs : ArrSim t.arrs t'.arrs

/-- A lookup that the ideal trie answers is answered in the same way, in every reachable state. -/
theorem StCount.Sim.lookup {K : Type} {t : TrieCount K} {t' : StCount K G R} (h : t'.Sim t) {q : List K} {v : Nat}
    (hv : t.lookup q = some v) : ∃ t'', t'.lookup q = some (v, t'') ∧ t''.Sim t := by
  have hr : Refines t.arrs (t.lookup q) (St.bind (St.mapQueryLoop t.voc t.ro q 0 [] []) (fun
    | none => St.pure NF
    | some [] => St.fail
    | some (w0 :: wids) =>
      if wids.length > t.order then St.pure NF else
      St.bind (St.descend wids 1 w0) fun pos =>
      if pos = NF then St.pure NF else
      St.bind (St.rank wids.length pos) fun rank =>
      St.bind (St.lift (t.counts[wids.length]?)) fun cv => St.lift (SeqColl.access cv rank)) : St G R Nat) := by
    unfold TrieCount.lookup
    refine (Refines.mapQueryLoop _ _ _ _ _ _).bind fun o => ?_
    rcases o with _ | _ | ⟨w0, wids⟩
    · exact Refines.pure _
    · exact Refines.none
    · refine (Refines.pure _).ite ((Refines.descend _ _ _).bind fun pos => (Refines.pure _).ite ?_)
      rw [← Option.bind_assoc]
      exact (Refines.rank _ _).bind fun rk => (Refines.lift _).bind fun cv => Refines.lift _
  obtain ⟨B, e, hB⟩ := hr v hv _ h.arrs
  refine ⟨{ t' with arrs := B }, ?_, ⟨h.order, h.ro, h.voc, h.counts, hB⟩⟩
  unfold StCount.lookup
  rw [h.voc, h.ro, h.order, h.counts, e, Option.map_some]

/-- So is any list of such lookups. -/
theorem StCount.Sim.lookups {K : Type} {t : TrieCount K} : ∀ {qs : List (List K)} {vs : List Nat} {t' : StCount K G R}, t'.Sim t →
    qs.mapM t.lookup = some vs → ∃ t'', t'.lookups qs = some (vs, t'') ∧ t''.Sim t := by
  intro qs
  induction qs with
  | nil => intro vs t' h hv; cases hv; exact ⟨t', rfl, h⟩
  | cons q qs ih =>
    intro vs t' h hv
    rw [List.mapM_cons] at hv
    obtain ⟨v, hv1, hv2⟩ := Option.bind_eq_some_iff.1 hv
    obtain ⟨ws, hv3, hv4⟩ := Option.bind_eq_some_iff.1 hv2
    cases hv4
    obtain ⟨t1, e1, h1⟩ := h.lookup hv1
    obtain ⟨t2, e2, h2⟩ := ih h1 hv3
    exact ⟨t2, by rw [StCount.lookups, e1, Option.bind_some, e2, Option.map_some], h2⟩

/-! ## Construction -/

/-- Whatever the ideal sequence of grams answers after being built, the stateful one does. -/
def GramsSt.Implements (G : GramsSt) (I : GramsImpl) (ord : Nat) (ids ptrs : List Nat) : Prop :=
  ∀ f, I.build ord ids ptrs = some (.ok f) → ∃ s, G.build ord ids ptrs = some (.ok s) ∧ G.Sim f (some s)

/-- The same for ranks. -/
def RanksSt.Implements (R : RanksSt) (I : RanksImpl) (ord : Nat) (ranks : List Nat) : Prop :=
  ∀ g, I.build ord ranks = some (.ok g) → ∃ t, R.build ord ranks = some (.ok t) ∧ R.Sim g (some t)

theorem GramsImpl.st_implements (I : GramsImpl) (ord : Nat) (ids ptrs : List Nat) : I.st.Implements I ord ids ptrs := by
  intro f hf
  refine ⟨f, hf, fun o => o = some f, rfl, ?_⟩
  rintro o b e id r rfl h
  exact ⟨f, f, rfl, by simp [GramsImpl.st, h], rfl⟩

theorem RanksImpl.st_implements (I : RanksImpl) (ord : Nat) (ranks : List Nat) : I.st.Implements I ord ranks := by
  intro f hf
  refine ⟨f, hf, fun o => o = some f, rfl, ?_⟩
  rintro o i r rfl h
  exact ⟨f, f, rfl, by simp [RanksImpl.st, h], rfl⟩

theorem Res.lift_ok_iff {α : Type} {x : Option α} {a : α} (h : Res.lift x = some (.ok a)) : x = some a := by
  cases x with
  | none => cases h
  | some b => cases h; rfl

end

section
variable {G : GramsSt} {R : RanksSt} {I : GramsImpl} {J : RanksImpl}

theorem ArrSim.length {A : List SortedArray} {B : List (StArray G R)} (h : ArrSim A B) : B.length = A.length := h.1.symm

/-- If the ideal sequences can be built, so can the stateful ones, and they simulate them. -/
theorem buildLevel_sim {K : Type} [DecidableEq K] (hG : ∀ ord ids ptrs, G.Implements I ord ids ptrs)
    (hR : ∀ ord ranks, R.Implements J ord ranks) {voc : K → Option Nat} {check : Bool} {ro vocSize rankWidth k : Nat}
    {curr prev : List (List K)} {ranks : List Nat} {A A' : List SortedArray} {B : List (StArray G R)} (hAB : ArrSim A B)
    (h : buildLevel I J voc check ro vocSize rankWidth k curr prev ranks A = some (.ok A')) :
    ∃ B', buildLevelSt G R voc check ro vocSize rankWidth k curr prev ranks B = some (.ok B') ∧ ArrSim A' B' := by
  unfold buildLevel at h
  obtain ⟨ptrs, e1, h⟩ := Res.bind_ok_iff h
  obtain ⟨ids, e2, h⟩ := Res.bind_ok_iff h
  by_cases hc : check = true ∧ (ro ≠ 0 ∧ ro < k) ∧ NF ∈ ids
  · rw [if_pos hc] at h; cases h
  rw [if_neg hc] at h
  obtain ⟨ids', e3, h⟩ := Res.bind_ok_iff h
  obtain ⟨f, e4, h⟩ := Res.bind_ok_iff h
  obtain ⟨ranks', e5, h⟩ := Res.bind_ok_iff h
  obtain ⟨g, e6, h⟩ := Res.bind_ok_iff h
  obtain ⟨e, e7, h⟩ := Res.bind_ok_iff h
  have h := Res.lift_ok_iff h
  obtain ⟨a, ha, h⟩ := Option.bind_eq_some_iff.1 h
  obtain ⟨ap, hap, rfl⟩ := Option.map_eq_some_iff.1 h
  obtain ⟨B1, m1, hB1⟩ := Refines.mapM (G := G) (R := R) (A := A) (Refines.tokenId voc ro) curr ids (Res.lift_ok_iff e2) B hAB
  obtain ⟨s, b4, s4⟩ := hG _ _ _ f e4
  obtain ⟨t, b6, s6⟩ := hR _ _ g e6
  obtain ⟨b, hb, sb⟩ := hB1.get ha
  obtain ⟨bp, hbp, sbp⟩ := hB1.get hap
  refine ⟨(B1.set k { b with grams := some s, ranks := some t }).set (k - 1) { bp with ptrs := some e }, ?_, ?_⟩
  · unfold buildLevelSt
    rw [e1, Res.bind_ok, m1, Res.lift_some, Res.bind_ok, if_neg hc, e3, Res.bind_ok, b4, Res.bind_ok, e5, Res.bind_ok, b6, Res.bind_ok,
      e7, Res.bind_ok, hb, Option.bind_some, hbp, Option.map_some, Res.lift_some]
  · exact (hB1.set (a := { a with find := f, ranks := g }) (b := { b with grams := some s, ranks := some t }) ⟨sb.size, s4, s6, sb.pair⟩).set (a := { ap with pair := e.pair }) (b := { bp with ptrs := some e })
      ⟨sbp.size, sbp.grams, sbp.ranks, fun _ _ h => h⟩

theorem buildLevels_sim {K : Type} [DecidableEq K] (hG : ∀ ord ids ptrs, G.Implements I ord ids ptrs)
    (hR : ∀ ord ranks, R.Implements J ord ranks) {voc : K → Option Nat} {check : Bool} {ro vocSize : Nat} :
    ∀ (rest : List (List (List K) × List Nat × Nat)) (k : Nat) (prev : List (List K)) {A A' : List SortedArray} {B : List (StArray G R)},
    ArrSim A B → buildLevels I J voc check ro vocSize k prev rest A = some (.ok A') →
    ∃ B', buildLevelsSt G R voc check ro vocSize k prev rest B = some (.ok B') ∧ ArrSim A' B' := by
  intro rest
  induction rest with
  | nil => intro k prev A A' B hAB h; cases h; exact ⟨B, rfl, hAB⟩
  | cons x rest ih =>
    intro k prev A A' B hAB h
    obtain ⟨curr, ranks, w⟩ := x
    rw [buildLevels] at h
    obtain ⟨A1, h1, h2⟩ := Res.bind_ok_iff h
    obtain ⟨B1, e1, hB1⟩ := buildLevel_sim hG hR hAB h1
    obtain ⟨B2, e2, hB2⟩ := ih _ _ hB1 h2
    exact ⟨B2, by rw [buildLevelsSt, e1, Res.bind_ok, e2], hB2⟩

theorem GramsSt.sim_none (G : GramsSt) (o : Option G.S) : G.Sim (fun _ _ _ => none) o :=
  ⟨fun _ => True, trivial, fun _ _ _ _ _ _ h => by cases h⟩

theorem RanksSt.sim_none (R : RanksSt) (o : Option R.T) : R.Sim (fun _ => none) o :=
  ⟨fun _ => True, trivial, fun _ _ _ _ h => by cases h⟩

theorem StArray.new_sim (n : Nat) : (StArray.new n : StArray G R).Sim (SortedArray.new n) :=
  ⟨rfl, GramsSt.sim_none G _, RanksSt.sim_none R _, fun _ _ h => by cases h⟩

/-- If the trie over ideal sequences can be built, so can the trie over the stateful ones; it simulates it. -/
theorem StCount.build_sim {K : Type} [DecidableEq K] (hG : ∀ ord ids ptrs, G.Implements I ord ids ptrs)
    (hR : ∀ ord ranks, R.Implements J ord ranks) {L : SortLib} {hv : Mphf K 64} {ro : Nat} {files : List (List (List K × Nat))}
    {t : TrieCount K} (h : TrieCount.build L hv I J ro files = some (.ok t)) :
    ∃ t', StCount.build L hv G R ro files = some (.ok t') ∧ t'.Sim t := by
  unfold TrieCount.build at h
  by_cases hc : files.length < 2 ∨ maxOrder < files.length ∨ 2 < ro
  · rw [if_pos hc] at h; cases h
  rw [if_neg hc] at h
  obtain ⟨colls, e1, h⟩ := Res.bind_ok_iff h
  obtain ⟨rks, e2, h⟩ := Res.bind_ok_iff h
  obtain ⟨r0, e3, h⟩ := Res.bind_ok_iff h
  obtain ⟨g0, e4, h⟩ := Res.bind_ok_iff h
  obtain ⟨tb, e5, h⟩ := Res.bind_ok_iff h
  obtain ⟨f0, e6, h⟩ := Res.bind_ok_iff h
  obtain ⟨arrs, e7, h⟩ := Res.bind_ok_iff h
  cases h
  obtain ⟨t0, b4, s4⟩ := hR _ _ g0 e4
  have h0 : ArrSim ((files.map fun f => SortedArray.new f.length).modifyHead fun a => { a with ranks := g0 })
      ((files.map fun f => (StArray.new f.length : StArray G R)).modifyHead fun a => { a with ranks := some t0 }) := by
    refine ⟨by simp, ?_⟩
    intro i a b ha hb
    have hg : ∀ (j : Nat) (a : SortedArray) (b : StArray G R), (files.map fun f => SortedArray.new f.length)[j]? = some a →
        (files.map fun f => (StArray.new f.length : StArray G R))[j]? = some b → b.Sim a := by
      intro j a b ha hb
      rw [List.getElem?_map] at ha hb
      obtain ⟨f, hf, rfl⟩ := Option.map_eq_some_iff.1 ha
      rw [hf] at hb; cases hb
      exact StArray.new_sim _
    rw [List.getElem?_modifyHead] at ha hb
    by_cases hi : i = 0
    · subst hi
      simp only [if_true] at ha hb
      obtain ⟨a', ha', rfl⟩ := Option.map_eq_some_iff.1 ha
      obtain ⟨b', hb', rfl⟩ := Option.map_eq_some_iff.1 hb
      have := hg 0 a' b' ha' hb'
      exact ⟨this.size, this.grams, s4, this.pair⟩
    · simp only [hi, if_false] at ha hb
      exact hg i a b (by simpa using ha) (by simpa using hb)
  obtain ⟨B, b7, s7⟩ := buildLevels_sim hG hR _ _ _ h0 e7
  refine ⟨{ order := files.length, ro := ro, voc := tb, arrs := B, counts := colls.map (·.1) }, ?_,
    ⟨rfl, rfl, rfl, rfl, s7⟩⟩
  unfold StCount.build
  rw [if_neg hc, e1, Res.bind_ok, e2, Res.bind_ok, e3, Res.bind_ok, b4, Res.bind_ok, e5, Res.bind_ok, e6, Res.bind_ok, b7, Res.bind_ok]

end

end Tongrams
