import Verif.TriePointers

/-!
# Trie levels: sorted arrays, context remapping, construction

Models `include/vectors/sorted_array.hpp`, `include/sequences/pointer_sequence.hpp`, the `map_id` functions of
`include/mappers.hpp`, and the level-by-level construction of `trie_count_lm::builder` / `trie_prob_lm::builder`.

An n-gram is represented by its *path*: the list of its words in the order in which the trie consumes them — first word
first in the FORWARD trie of counts, last word first in the BACKWARD trie of probabilities.  So `pattern` is
`path.dropLast` and `token` is the last element of the path in both (trie_count_lm.hpp:179-184: predecessor and last
token; trie_prob_lm.hpp:230-234: suffix and first token).  The byte-level functions that compute them are modelled in
`Verif.Bytes`.
-/

set_option linter.unusedSectionVars false

namespace Tongrams

/-- A computation that can be undefined (`none`), or end the program with an exception or `exit(1)` (`error`). -/
abbrev Res (α : Type) := Option (Except Unit α)

/-- Sequencing of such computations. -/
def Res.bind {α β : Type} (x : Res α) (f : α → Res β) : Res β :=
  Option.bind x fun | .ok a => f a | .error () => some (.error ())

@[simp] theorem Res.bind_ok {α β : Type} (a : α) (f : α → Res β) : Res.bind (some (.ok a)) f = f a := rfl

theorem Res.bind_ok_iff {α β : Type} {x : Res α} {f : α → Res β} {v : β} (h : Res.bind x f = some (.ok v)) :
    ∃ a, x = some (.ok a) ∧ f a = some (.ok v) := by
  rcases x with _ | _ | a
  · cases h
  · cases h
  · exact ⟨a, rfl, h⟩

/-- A computation that cannot throw. -/
def Res.lift {α : Type} (x : Option α) : Res α := x.map .ok

@[simp] theorem Res.lift_some {α : Type} (a : α) : Res.lift (some a) = some (.ok a) := rfl

/-- `sorted_array` (sorted_array.hpp:7-240).  The sequences are represented by their query functions: `find b e id` is
`m_grams.find({b, e}, id, &pos)`, `ranks i` is `m_counts_ranks[i]` or `m_probs_backoffs_ranks.access(i)` (a given
model has only one of the two), `pair i` is `m_pointers[i]`. -/
structure SortedArray where
  size : Nat
  find : Nat → Nat → Nat → Option Nat
  ranks : Nat → Option Nat
  pair : Nat → Option (Nat × Nat)

namespace SortedArray

/-- `sorted_array(size)` (sorted_array.hpp:113): nothing built yet. -/
def new (n : Nat) : SortedArray := ⟨n, fun _ _ _ => none, fun _ => none, fun _ => none⟩

/-- `range` (sorted_array.hpp:115-118). -/
def range (a : SortedArray) (pos : Nat) : Option (Nat × Nat) := a.pair pos

/-- `position` (sorted_array.hpp:139-143). -/
def position (a : SortedArray) (r : Nat × Nat) (id : Nat) : Option Nat := a.find r.1 r.2 id

/-- `next` (sorted_array.hpp:120-127): the position and the updated range. -/
def next (a : SortedArray) (r : Nat × Nat) (id : Nat) : Option (Nat × (Nat × Nat)) :=
  (a.position r id).bind fun pos => if pos = NF then some (NF, r) else (a.range pos).map fun r' => (pos, r')

end SortedArray

/-- `sorted_array_mapper::map_id(range, id, ngrams)` (mappers.hpp:117-128). -/
def mapIn (a : SortedArray) (r : Nat × Nat) (id : Nat) : Option Nat :=
  (a.find r.1 r.2 id).map fun pos => if pos = NF then NF else pos - r.1

/-- `sorted_array_mapper::map_id(parent_id, parent_parent_id, id, unigrams, remapping_order)` (mappers.hpp:69-81).
The other two functions end the same way (mappers.hpp:102-114 and 232-237). -/
def mapId (arrs : List SortedArray) (ro parent parentParent id : Nat) : Option Nat :=
  (arrs[0]?).bind fun a0 =>
  (if ro = 1 then a0.range parent
   else (a0.range parentParent).bind fun r => (arrs[1]?).bind fun a1 => (a1.next r parent).map (·.2)).bind fun r =>
  (arrs[ro]?).bind fun a => mapIn a r id

/-- `sorted_array_mapper::map_id(gram, id, vocab, unigrams, remapping_order, reversed)` (mappers.hpp:83-115): `back_to`
(`to`) takes the word `remapping_order` places before the end of the path, `next` (`prev`) the one after it. -/
def mapIdBuild {K : Type} (voc : K → Option Nat) (arrs : List SortedArray) (ro : Nat) (path : List K) (id : Nat) : Option Nat :=
  (path[path.length - 1 - ro]?).bind fun w => (voc w).bind fun parent =>
  if ro = 2 then
    (path[path.length - 2]?).bind fun w' => (voc w').bind fun nextId => mapId arrs 2 nextId parent id
  else mapId arrs ro parent 0 id

/-- The id stored for an n-gram (trie_count_lm.hpp:215-237, trie_prob_lm.hpp:261-272): the vocabulary id of the token,
remapped if the mapper is `sorted_array_mapper` (`ro ≠ 0`: binary_header.hpp:123) and the order is above
`remapping_order + 1`. -/
def tokenId {K : Type} (voc : K → Option Nat) (arrs : List SortedArray) (ro : Nat) (path : List K) : Option Nat :=
  path.getLast?.bind fun t => (voc t).bind fun id =>
  if ro ≠ 0 ∧ path.length > ro + 1 then mapIdBuild voc arrs ro path id else some id

/-- Values pushed into a `compact_vector::builder` of `vals.length` elements of `w` bits and read back through the
iterator of the compact_vector (sorted_array.hpp:44-60, 78-81). -/
def packCV (w : Nat) (vals : List Nat) : Option (List Nat) :=
  (CVBuilder.new vals.length w).bind fun b =>
  (b.fill (vals.map (BitVec.ofNat 64))).bind fun b =>
  (CompactVector.ofBuilder b).toList.map (·.map BitVec.toNat)

/-- The template parameter `Grams`: `build(begin, n, pointers, order)`, giving the `find` function. -/
structure GramsImpl where
  build : Nat → List Nat → List Nat → Res (Nat → Nat → Nat → Option Nat)

/-- The template parameter `Ranks`: `build(begin, n, order)`, giving the access function. -/
structure RanksImpl where
  build : Nat → List Nat → Res (Nat → Option Nat)

/-- `Grams = fast_ef_sequence`; `h ord` is the hash function over the beginnings of the long ranges of order `ord`. -/
def GramsImpl.fastEF (h : Nat → Mphf Nat 64) : GramsImpl where
  build ord ids ptrs := Res.bind (FastEF.build (h ord) ids ptrs) fun f => some (.ok fun b e id => f.find b e id)

/-- One iteration of the loop over the orders (trie_count_lm.hpp:47-84, trie_prob_lm.hpp:74-104) for the order with
index `k = ord - 1`: pointers, ids, ranks; then `sa_builder.build(m_arrays[ord - 1], ..)` (sorted_array.hpp:57-90) and
`build_pointers(m_arrays[ord - 2], ..)` (sorted_array.hpp:92-95, pointer_sequence.hpp:9-12).
Simplification: the pointers and the ids, computed in one pass in the source, are computed in two (neither uses the
other).  `check`: the not-found check of remapped ids that the counts builder has (trie_count_lm.hpp:224-234) and the probabilities
builder has not; ids that are not remapped are not checked. -/
def buildLevel {K : Type} [DecidableEq K] (G : GramsImpl) (R : RanksImpl) (voc : K → Option Nat) (check : Bool)
    (ro vocSize rankWidth : Nat) (k : Nat) (curr prev : List (List K)) (ranks : List Nat) (arrs : List SortedArray) : Res (List SortedArray) :=
  Res.bind (some (buildPointers List.dropLast curr prev)) fun ptrs =>
  Res.bind (Res.lift (curr.mapM (tokenId voc arrs ro))) fun ids =>
  if check = true ∧ (ro ≠ 0 ∧ ro < k) ∧ NF ∈ ids then some (.error ()) else
  Res.bind (Res.lift (packCV (ceilLog2 (BitVec.ofNat 64 (vocSize + 1))) ids)) fun ids' =>
  Res.bind (G.build (k + 1) ids' ptrs) fun f =>
  Res.bind (Res.lift (packCV rankWidth ranks)) fun ranks' =>
  Res.bind (R.build (k + 1) ranks') fun rk =>
  Res.bind (ptrs.getLast?.bind fun u => EF.build ptrs u) fun e =>
  Res.lift ((arrs[k]?).bind fun a => (arrs[k - 1]?).map fun ap =>
    (arrs.set k { a with find := f, ranks := rk }).set (k - 1) { ap with pair := e.pair })

/-- The loop over the orders 2, 3, … (trie_count_lm.hpp:47-84, trie_prob_lm.hpp:74-104): `rest` lists the remaining
orders, each with its n-grams, ranks and the width given to the ranks. -/
def buildLevels {K : Type} [DecidableEq K] (G : GramsImpl) (R : RanksImpl) (voc : K → Option Nat) (check : Bool)
    (ro vocSize : Nat) :
    Nat → List (List K) → List (List (List K) × List Nat × Nat) → List SortedArray → Res (List SortedArray)
  | _, _, [], arrs => some (.ok arrs)
  | k, prev, (curr, ranks, w) :: rest, arrs =>
    Res.bind (buildLevel G R voc check ro vocSize w k curr prev ranks arrs) fun arrs' =>
      buildLevels G R voc check ro vocSize (k + 1) curr rest arrs'

/-! ## Specification -/

/-- Position of `s` among its siblings (the elements of `l` with the same elements but the last). -/
def Spec.siblingRank {K : Type} [DecidableEq K] (l : List (List K)) (s : List K) : Nat :=
  (l.take (l.idxOf s)).countP fun q => decide (q.dropLast = s.dropLast)

/-- The id a trie with remapping order `ro` (0: none) stores for the path `q`, given the vocabulary `U` and the
`ro + 1`-grams `lr`. -/
def Spec.storedId {K : Type} [DecidableEq K] (U : List K) (lr : List (List K)) (ro : Nat) (q : List K) : Nat :=
  if ro = 0 ∨ q.length ≤ ro + 1 then (q.getLast?.map U.idxOf).getD 0
  else Spec.siblingRank lr (q.drop (q.length - (ro + 1)))

/-- The data a trie is built from: the vocabulary `U` (ids are positions in it) and, for each order, the list of paths.
`ro` is the remapping order; with remapping, the last `ro + 1` words of every longer n-gram must be listed too. -/
structure Spec.TrieData {K : Type} [DecidableEq K] (U : List K) (levels : List (List (List K))) (ro : Nat) : Prop where
  nodup : U.Nodup
  unigrams : levels[0]? = some (U.map fun w => [w])
  nonempty : ∀ (k : Nat) (l : List (List K)), levels[k]? = some l → l ≠ []
  len : ∀ (k : Nat) (l : List (List K)), levels[k]? = some l → ∀ q ∈ l, q.length = k + 1
  words : ∀ (k : Nat) (l : List (List K)), levels[k]? = some l → ∀ q ∈ l, ∀ w ∈ q, w ∈ U
  sorted : ∀ (k : Nat) (l : List (List K)), levels[k]? = some l → l.Pairwise fun p q => p.map U.idxOf < q.map U.idxOf
  prefix_closed : ∀ (k : Nat) (l l' : List (List K)), levels[k]? = some l → levels[k + 1]? = some l' → ∀ q ∈ l', q.dropLast ∈ l
  windows : ro ≠ 0 → ∀ (k : Nat) (l lr : List (List K)), ro < k → levels[k]? = some l → levels[ro]? = some lr → ∀ q ∈ l, q.drop (k - ro) ∈ lr

/-! ## Proofs -/

theorem concat_lt {a b : List Nat} {x y : Nat} (h : a.length = b.length) :
    a ++ [x] < b ++ [y] ↔ a < b ∨ (a = b ∧ x < y) := by
  induction a generalizing b with
  | nil =>
    cases b with
    | nil => simp [List.cons_lt_cons_iff]
    | cons c cs => simp at h
  | cons d ds ih =>
    cases b with
    | nil => simp at h
    | cons c cs =>
      simp only [List.length_cons, Nat.add_right_cancel_iff] at h
      simp only [List.cons_append, List.cons_lt_cons_iff, ih h, List.cons.injEq]
      tauto

namespace Trie
variable {K : Type} [DecidableEq K]

theorem map_idx_inj {U : List K} {p q : List K} (hp : ∀ w ∈ p, w ∈ U) (hq : ∀ w ∈ q, w ∈ U)
    (h : p.map U.idxOf = q.map U.idxOf) : p = q := by
  induction p generalizing q with
  | nil => cases q with
    | nil => rfl
    | cons => simp at h
  | cons a p ih =>
    cases q with
    | nil => simp at h
    | cons b q =>
      simp only [List.map_cons, List.cons.injEq] at h
      have e : a = b := by
        have h1 := List.getElem_idxOf (List.idxOf_lt_length_of_mem (hp a List.mem_cons_self))
        have h2 := List.getElem_idxOf (List.idxOf_lt_length_of_mem (hq b List.mem_cons_self))
        have h3 : U[U.idxOf a]'(List.idxOf_lt_length_of_mem (hp a List.mem_cons_self)) =
            U[U.idxOf b]'(List.idxOf_lt_length_of_mem (hq b List.mem_cons_self)) := by simp only [h.1]
        rw [h1, h2] at h3; exact h3
      rw [e, ih (fun w hw => hp w (List.mem_cons_of_mem _ hw)) (fun w hw => hq w (List.mem_cons_of_mem _ hw)) h.2]

/-- Two paths of a level compare by pattern first, by last word second. -/
theorem split_lt {U : List K} {p q : List K} (hl : p.length = q.length) (hne : p ≠ []) (hp : ∀ w ∈ p, w ∈ U)
    (hq : ∀ w ∈ q, w ∈ U) (h : p.map U.idxOf < q.map U.idxOf) :
    p.dropLast.map U.idxOf < q.dropLast.map U.idxOf ∨
      (p.dropLast = q.dropLast ∧ ∃ x y, p = p.dropLast ++ [x] ∧ q = q.dropLast ++ [y] ∧ U.idxOf x < U.idxOf y) := by
  have hne' : q ≠ [] := by rintro rfl; exact hne (List.length_eq_zero_iff.mp hl)
  have e1 := List.dropLast_concat_getLast hne
  have e2 := List.dropLast_concat_getLast hne'
  rw [← e1, ← e2, List.map_append, List.map_append] at h
  have hl2 : (p.dropLast.map U.idxOf).length = (q.dropLast.map U.idxOf).length := by
    simp [List.length_dropLast, hl]
  have h' := (concat_lt (x := U.idxOf (p.getLast hne)) (y := U.idxOf (q.getLast hne')) hl2).1 h
  rcases h' with h' | ⟨h1, h2⟩
  · exact .inl h'
  · refine .inr ⟨map_idx_inj (fun w hw => hp w (List.dropLast_subset _ hw)) (fun w hw => hq w (List.dropLast_subset _ hw)) h1,
      _, _, e1.symm, e2.symm, h2⟩

/-- Counting the elements of an interval of positions. -/
theorem countP_take_block {α : Type} {l : List α} {f : α → Bool} {b e : Nat}
    (hblk : ∀ i q, l[i]? = some q → (b ≤ i ∧ i < e ↔ f q = true)) (n : Nat) (hn : n ≤ l.length) (hne : n ≤ e) :
    (l.take n).countP f = n - b := by
  induction n with
  | zero => simp
  | succ n ih =>
    have hlt : n < l.length := by omega
    rw [List.take_add_one, List.getElem?_eq_getElem hlt, List.countP_append, ih (by omega) (by omega)]
    have := hblk n l[n] (List.getElem?_eq_getElem hlt)
    by_cases hf : f l[n] = true
    · have h2 := this.2 hf
      simp [hf]; omega
    · have h2 : ¬ (b ≤ n ∧ n < e) := fun h => hf (this.1 h)
      simp [hf]; omega

theorem idxOf_of_nodup {α : Type} [BEq α] [LawfulBEq α] {l : List α} (h : l.Nodup) {i : Nat} {x : α} (hi : l[i]? = some x) : l.idxOf x = i := by
  obtain ⟨hlt, rfl⟩ := List.getElem?_eq_some_iff.1 hi
  exact List.Nodup.idxOf_getElem h i hlt

theorem siblingRank_eq {l : List (List K)} (hn : l.Nodup) {p : List K} {b e : Nat}
    (hblk : ∀ i q, l[i]? = some q → (b ≤ i ∧ i < e ↔ q.dropLast = p)) {i : Nat} {s : List K} (hi : l[i]? = some s)
    (hs : s.dropLast = p) : Spec.siblingRank l s = i - b ∧ b ≤ i ∧ i < e := by
  have h := (hblk i s hi).2 hs
  refine ⟨?_, h⟩
  have hlt : i < l.length := (List.getElem?_eq_some_iff.1 hi).1
  rw [Spec.siblingRank, idxOf_of_nodup hn hi]
  refine countP_take_block (b := b) (e := e) ?_ i (by omega) (by omega)
  intro j q hj
  rw [hblk j q hj, hs, decide_eq_true_eq]

/-- What the construction establishes about the order with index `m ≥ 1`: the pointers of the order below delimit its
blocks, searching a non-empty block for a stored id finds it, searching the block of `p` for an absent id with `ex p id` reports it absent,
the ranks are those given. -/
structure LevelOK (ex : List K → Nat → Prop) (prev curr : List (List K)) (mid : List K → Nat) (ranks : List Nat) (arrs : List SortedArray) (m : Nat) : Prop where
  ok : ∃ ap a, arrs[m - 1]? = some ap ∧ arrs[m]? = some a ∧
    (∀ j p, prev[j]? = some p → ∃ b e, ap.pair j = some (b, e) ∧ b ≤ e ∧ e ≤ curr.length ∧
      (∀ i q, curr[i]? = some q → (b ≤ i ∧ i < e ↔ q.dropLast = p)) ∧
      (b < e → ∀ id, id < 2 ^ 64 →
        ((∃ q ∈ curr, q.dropLast = p ∧ mid q = id) →
          ∃ pos q, a.find b e id = some pos ∧ curr[pos]? = some q ∧ q.dropLast = p ∧ mid q = id) ∧
        (ex p id → (∀ q ∈ curr, q.dropLast = p → mid q ≠ id) → a.find b e id = some NF))) ∧
    (∀ i r, ranks[i]? = some r → a.ranks i = some r)

/-- `ex` for the children of the elements of `prev`. -/
def exAt (ex : List K → Nat → Prop) (prev : List (List K)) (j id : Nat) : Prop := ∃ p, prev[j]? = some p ∧ ex p id

/-- The gram sequence built from these ids and pointers finds stored ids in non-empty ranges; in the range
with index `j` it reports absent an absent id with `ex j id`. -/
def _root_.Tongrams.GramsImpl.Exact (G : GramsImpl) (ex : Nat → Nat → Prop) (ord : Nat) (ids ptrs : List Nat) : Prop :=
  ∃ f, G.build ord ids ptrs = some (.ok f) ∧ ∀ j b e, ptrs[j]? = some b → ptrs[j + 1]? = some e → b < e →
    ∀ id, id < 2 ^ 64 →
      ((∃ i, b ≤ i ∧ i < e ∧ ids.getD i 0 = id) → ∃ pos, f b e id = some pos ∧ b ≤ pos ∧ pos < e ∧ ids.getD pos 0 = id) ∧
      (ex j id → (∀ i, b ≤ i → i < e → ids.getD i 0 ≠ id) → f b e id = some NF)

/-- The rank sequence built from these ranks returns them. -/
def _root_.Tongrams.RanksImpl.Exact (R : RanksImpl) (ord : Nat) (ranks : List Nat) : Prop :=
  ∃ g, R.build ord ranks = some (.ok g) ∧ ∀ i r, ranks[i]? = some r → g i = some r

theorem packCV_eq {w : Nat} (hw : w ≤ 64) {vals : List Nat} (hv : ∀ v ∈ vals, v < 2 ^ w) : packCV w vals = some vals := by
  have h64 : ∀ v ∈ vals, v < 2 ^ 64 := fun v h => Nat.lt_of_lt_of_le (hv v h) (Nat.pow_le_pow_right (by omega) hw)
  obtain ⟨b, b', e1, e2, hh, -, -⟩ := CompactVector.fill_holds w hw (vals.map (BitVec.ofNat 64)) (by
    intro v hm
    obtain ⟨x, hx, rfl⟩ := List.mem_map.1 hm
    rw [BitVec.toNat_ofNat, Nat.mod_eq_of_lt (h64 x hx)]; exact hv x hx)
  rw [List.length_map] at e1
  unfold packCV
  rw [e1, Option.bind_some, e2, Option.bind_some, hh.toList, Option.map_some, List.map_map]
  congr 1
  conv_rhs => rw [← List.map_id vals]
  apply List.map_congr_left
  intro v hm
  simp only [Function.comp, id, BitVec.toNat_ofNat]
  exact Nat.mod_eq_of_lt (h64 v hm)

theorem mapM_eq_map {α β : Type} {f : α → Option β} {g : α → β} {l : List α} (h : ∀ x ∈ l, f x = some (g x)) :
    l.mapM f = some (l.map g) := by
  induction l with
  | nil => rfl
  | cons a l ih =>
    rw [List.mapM_cons, h a List.mem_cons_self, ih (fun x hx => h x (List.mem_cons_of_mem _ hx))]
    rfl

theorem lex_irrefl (U : List K) (p : List K) : ¬ p.map U.idxOf < p.map U.idxOf := List.lt_irrefl _

theorem lex_trans (U : List K) (p q r : List K) (h1 : p.map U.idxOf < q.map U.idxOf) (h2 : q.map U.idxOf < r.map U.idxOf) :
    p.map U.idxOf < r.map U.idxOf := List.lt_trans h1 h2

theorem nodup_of_sorted {U : List K} {l : List (List K)} (h : l.Pairwise fun p q => p.map U.idxOf < q.map U.idxOf) : l.Nodup := by
  refine List.Pairwise.imp ?_ h
  rintro a b h rfl
  exact lex_irrefl U a h

/-- The patterns of a sorted level never decrease. -/
theorem patterns_sorted {U : List K} {l : List (List K)} {n : Nat} (hl : ∀ q ∈ l, q.length = n + 1)
    (hw : ∀ q ∈ l, ∀ w ∈ q, w ∈ U) (hs : l.Pairwise fun p q => p.map U.idxOf < q.map U.idxOf) :
    (l.map List.dropLast).Pairwise fun x y => x.map U.idxOf < y.map U.idxOf ∨ x = y := by
  rw [List.pairwise_map]
  refine hs.imp_of_mem ?_
  intro p q hp hq h
  rcases split_lt (by rw [hl p hp, hl q hq]) (by intro e; have := hl p hp; rw [e] at this; simp at this) (hw p hp) (hw q hq) h with h | h
  · exact .inl h
  · exact .inr h.1

/-- One order is built correctly. -/
theorem buildLevel_ok {G : GramsImpl} {R : RanksImpl} {voc : K → Option Nat} {check : Bool} {ex : List K → Nat → Prop} {ro w k : Nat} {U : List K}
    {curr prev : List (List K)} {ranks : List Nat} {arrs : List SortedArray} {mid : List K → Nat} {n : Nat}
    (hk : 1 ≤ k) (hka : k < arrs.length)
    (hl : ∀ q ∈ curr, q.length = n + 1) (hw : ∀ q ∈ curr, ∀ w ∈ q, w ∈ U)
    (hs : curr.Pairwise fun p q => p.map U.idxOf < q.map U.idxOf) (hsp : prev.Pairwise fun p q => p.map U.idxOf < q.map U.idxOf)
    (hpre : ∀ q ∈ curr, q.dropLast ∈ prev) (htok : ∀ q ∈ curr, tokenId voc arrs ro q = some (mid q))
    (hmid : ∀ q ∈ curr, mid q < U.length) (hU : U.length + 1 < 2 ^ 64) (hcl : curr.length < 2 ^ 64)
    (hG : G.Exact (exAt ex prev) (k + 1) (curr.map mid) (Spec.childPtrs List.dropLast curr prev))
    (hww : w ≤ 64) (hrw : ∀ r ∈ ranks, r < 2 ^ w) (hR : R.Exact (k + 1) ranks) :
    ∃ arrs', buildLevel G R voc check ro U.length w k curr prev ranks arrs = some (.ok arrs') ∧
      LevelOK ex prev curr mid ranks arrs' k ∧ arrs'.length = arrs.length ∧
      (∀ j, j ≠ k → j ≠ k - 1 → arrs'[j]? = arrs[j]?) ∧
      (∀ a, arrs[k - 1]? = some a → ∃ pr, arrs'[k - 1]? = some { a with pair := pr }) := by
  obtain ⟨ptrs, e1, e2, e3, e4, e5⟩ :=
    C38_pointers_delimit_children (pat := List.dropLast) (lex_irrefl U) (lex_trans U) hsp (patterns_sorted hl hw hs) hpre
  subst e2
  obtain ⟨f, ef1, ef2⟩ := hG
  obtain ⟨rk, er1, er2⟩ := hR
  have hids : curr.mapM (tokenId voc arrs ro) = some (curr.map mid) := mapM_eq_map htok
  have hvw := ceilLog2_spec (BitVec.ofNat 64 (U.length + 1))
  rw [BitVec.toNat_ofNat, Nat.mod_eq_of_lt hU] at hvw
  have hpack : packCV (ceilLog2 (BitVec.ofNat 64 (U.length + 1))) (curr.map mid) = some (curr.map mid) := by
    apply packCV_eq hvw.2.2
    intro v hv
    obtain ⟨q, hq, rfl⟩ := List.mem_map.1 hv
    have := hmid q hq; omega
  have hpackr : packCV w ranks = some ranks := packCV_eq hww hrw
  obtain ⟨e, ee1, -, -, ee3, -⟩ := C12_ef_sequence_is_input (vs := Spec.childPtrs List.dropLast curr prev) (u := curr.length)
    e4.sorted (by
      intro v hv
      obtain ⟨i, hi, rfl⟩ := List.mem_iff_getElem.1 hv
      have hlast := e4.last
      rw [List.getLast?_eq_getElem?] at hlast
      obtain ⟨h1, h2⟩ := List.getElem?_eq_some_iff.1 hlast
      rw [← h2]
      by_cases hil : i = (Spec.childPtrs List.dropLast curr prev).length - 1
      · simp only [hil, Nat.le_refl]
      · exact List.pairwise_iff_getElem.1 e4.sorted i _ hi h1 (by omega)) hcl
  have hnf : ¬ (check = true ∧ (ro ≠ 0 ∧ ro < k) ∧ NF ∈ curr.map mid) := by
    rintro ⟨-, -, hm⟩
    obtain ⟨q, hq, hq2⟩ := List.mem_map.1 hm
    have := hmid q hq
    unfold NF at hq2; omega
  have hb : buildLevel G R voc check ro U.length w k curr prev ranks arrs =
      some (.ok ((arrs.set k { arrs[k] with find := f, ranks := rk }).set (k - 1) { arrs[k - 1] with pair := e.pair })) := by
    unfold buildLevel
    rw [e1, Res.bind_ok, hids, Res.lift_some, Res.bind_ok, if_neg hnf, hpack, Res.lift_some, Res.bind_ok, ef1, Res.bind_ok,
      hpackr, Res.lift_some, Res.bind_ok, er1, Res.bind_ok, e4.last, Option.bind_some, ee1, Res.bind_ok,
      List.getElem?_eq_getElem hka, Option.bind_some, List.getElem?_eq_getElem (by omega), Option.map_some, Res.lift_some]
  refine ⟨_, hb, ⟨⟨{ arrs[k - 1] with pair := e.pair }, { arrs[k] with find := f, ranks := rk }, ?_, ?_, ?_, ?_⟩⟩, ?_, ?_, ?_⟩
  · rw [List.getElem?_set_self (by rw [List.length_set]; omega)]
  · rw [List.getElem?_set_ne (by omega), List.getElem?_set_self hka]
  · intro j p hj
    have hjl : j < prev.length := (List.getElem?_eq_some_iff.1 hj).1
    have hp1 := ee3 j (by omega)
    have hb1 : (Spec.childPtrs List.dropLast curr prev)[j]? = some ((Spec.childPtrs List.dropLast curr prev)[j]'(by omega)) :=
      List.getElem?_eq_getElem _
    have hb2 : (Spec.childPtrs List.dropLast curr prev)[j + 1]? = some ((Spec.childPtrs List.dropLast curr prev)[j + 1]'(by omega)) :=
      List.getElem?_eq_getElem _
    generalize (Spec.childPtrs List.dropLast curr prev)[j]'(by omega) = b at hp1 hb1
    generalize (Spec.childPtrs List.dropLast curr prev)[j + 1]'(by omega) = en at hp1 hb2
    have hble : b ≤ en := by
      obtain ⟨h1, rfl⟩ := List.getElem?_eq_some_iff.1 hb1
      obtain ⟨h2, rfl⟩ := List.getElem?_eq_some_iff.1 hb2
      exact List.pairwise_iff_getElem.1 e4.sorted _ _ _ _ (by omega)
    have hen : en ≤ curr.length := by
      have hlast := e4.last
      rw [List.getLast?_eq_getElem?] at hlast
      obtain ⟨h1, h2⟩ := List.getElem?_eq_some_iff.1 hlast
      obtain ⟨h3, rfl⟩ := List.getElem?_eq_some_iff.1 hb2
      rw [← h2]
      by_cases hil : j + 1 = (Spec.childPtrs List.dropLast curr prev).length - 1
      · simp only [hil, Nat.le_refl]
      · exact List.pairwise_iff_getElem.1 e4.sorted _ _ h3 h1 (by omega)
    have hblk := e5 j b en p hb1 hb2 hj
    refine ⟨b, en, hp1, hble, hen, hblk, ?_⟩
    intro hlt id hid
    obtain ⟨hs1, hs2⟩ := ef2 j b en hb1 hb2 hlt id hid
    have hget : ∀ i (hi : i < curr.length), (curr.map mid).getD i 0 = mid curr[i] := by
      intro i hi
      rw [List.getD_eq_getElem?_getD, List.getElem?_map, List.getElem?_eq_getElem hi]; rfl
    constructor
    · rintro ⟨q, hq, hqp, hqm⟩
      obtain ⟨i, hi, rfl⟩ := List.mem_iff_getElem.1 hq
      have hin := (hblk i _ (List.getElem?_eq_getElem hi)).2 hqp
      obtain ⟨pos, e1, h1, h2, h3⟩ := hs1 ⟨i, hin.1, hin.2, by rw [hget i hi]; exact hqm⟩
      have hpl : pos < curr.length := by omega
      refine ⟨pos, curr[pos], e1, List.getElem?_eq_getElem hpl, (hblk pos _ (List.getElem?_eq_getElem hpl)).1 ⟨h1, h2⟩, ?_⟩
      rw [hget pos hpl] at h3
      exact h3
    · intro hx hno
      apply hs2 ⟨p, hj, hx⟩
      intro i h1 h2
      have hi : i < curr.length := by omega
      rw [hget i hi]
      exact hno _ (List.getElem_mem hi) ((hblk i _ (List.getElem?_eq_getElem hi)).1 ⟨h1, h2⟩)
  · intro i r hr
    exact er2 i r hr
  · simp
  · intro j h1 h2
    rw [List.getElem?_set_ne (by omega), List.getElem?_set_ne (by omega)]
  · intro a ha
    obtain ⟨h1, rfl⟩ := List.getElem?_eq_some_iff.1 ha
    exact ⟨e.pair, List.getElem?_set_self (by rw [List.length_set]; omega)⟩

/-! ### The stored ids -/

theorem siblingRank_lt {l : List (List K)} (hn : l.Nodup) {i j : Nat} {s t : List K} (hi : l[i]? = some s) (hj : l[j]? = some t)
    (hij : i < j) (hst : s.dropLast = t.dropLast) : Spec.siblingRank l s < Spec.siblingRank l t := by
  rw [Spec.siblingRank, Spec.siblingRank, idxOf_of_nodup hn hi, idxOf_of_nodup hn hj, hst]
  have hlt : i < l.length := (List.getElem?_eq_some_iff.1 hi).1
  have h1 : (l.take (i + 1)).countP (fun q => decide (q.dropLast = t.dropLast)) =
      (l.take i).countP (fun q => decide (q.dropLast = t.dropLast)) + 1 := by
    rw [List.take_add_one, hi, List.countP_append]
    simp [hst]
  have h2 : (l.take (i + 1)).countP (fun q => decide (q.dropLast = t.dropLast)) ≤
      (l.take j).countP (fun q => decide (q.dropLast = t.dropLast)) := by
    have : l.take (i + 1) = (l.take j).take (i + 1) := by rw [List.take_take, Nat.min_eq_left (by omega)]
    rw [this]
    exact (List.take_sublist _ _).countP_le
  omega

theorem siblingRank_le {U : List K} {l : List (List K)} {n : Nat} (hl : ∀ q ∈ l, q.length = n + 1)
    (hw : ∀ q ∈ l, ∀ w ∈ q, w ∈ U) (hs : l.Pairwise fun p q => p.map U.idxOf < q.map U.idxOf) {p : List K} {c : K}
    (hm : p ++ [c] ∈ l) : Spec.siblingRank l (p ++ [c]) ≤ U.idxOf c := by
  obtain ⟨i, hi, ei⟩ := List.mem_iff_getElem.1 hm
  have hi' : l[i]? = some (p ++ [c]) := by rw [List.getElem?_eq_getElem hi, ei]
  rw [Spec.siblingRank, idxOf_of_nodup (nodup_of_sorted hs) hi', List.countP_eq_length_filter]
  have hlast : ∀ q, q ∈ (l.take i).filter (fun q => decide (q.dropLast = (p ++ [c]).dropLast)) →
      ∃ x, q = p ++ [x] ∧ U.idxOf x < U.idxOf c := by
    intro q hq
    rw [List.mem_filter, decide_eq_true_eq, List.dropLast_concat] at hq
    obtain ⟨j, hj, ej⟩ := List.mem_iff_getElem.1 hq.1
    rw [List.length_take] at hj
    rw [List.getElem_take] at ej
    have hlt : q.map U.idxOf < (p ++ [c]).map U.idxOf := by
      rw [← ej, ← ei]
      exact List.pairwise_iff_getElem.1 hs j i (by omega) hi (by omega)
    have hql : q ∈ l := List.mem_of_mem_take hq.1
    rcases split_lt (by rw [hl q hql, hl _ hm]) (by intro e; have := hl q hql; rw [e] at this; simp at this) (hw q hql) (hw _ hm) hlt with h | ⟨h1, x, y, h2, h3, h4⟩
    · rw [hq.2, List.dropLast_concat] at h; exact absurd h (lex_irrefl U p)
    · rw [List.dropLast_concat] at h3
      have : y = c := by simpa using h3.symm
      subst this
      exact ⟨x, by rw [← hq.2]; exact h2, h4⟩
  have hsub : (((l.take i).filter (fun q => decide (q.dropLast = (p ++ [c]).dropLast))).map fun q => (q.getLast?.map U.idxOf).getD 0) ⊆
      List.range (U.idxOf c) := by
    intro v hv
    obtain ⟨q, hq, rfl⟩ := List.mem_map.1 hv
    obtain ⟨x, rfl, hx⟩ := hlast q hq
    simpa using hx
  have hnd : (((l.take i).filter (fun q => decide (q.dropLast = (p ++ [c]).dropLast))).map fun q => (q.getLast?.map U.idxOf).getD 0).Nodup := by
    rw [List.Nodup, List.pairwise_map]
    have hs2 := (hs.sublist (List.take_sublist i l)).sublist
      (List.filter_sublist (p := fun q => decide (q.dropLast = (p ++ [c]).dropLast)))
    refine hs2.imp_of_mem ?_
    intro a b ha hb hab
    obtain ⟨x, rfl, -⟩ := hlast a ha
    obtain ⟨y, rfl, -⟩ := hlast b hb
    rw [List.map_append, List.map_append] at hab
    rcases (concat_lt (x := U.idxOf x) (y := U.idxOf y) rfl).1 hab with h | ⟨-, h⟩
    · exact absurd h (lex_irrefl U p)
    · simp; omega
  have := (List.subperm_of_subset hnd hsub).length_le
  simpa using this

variable {U : List K} {levels : List (List (List K))} {ro : Nat}

/-- Files that list all suffixes list those that remapping needs. -/
theorem windows_of_suffixes
    (h : ro ≠ 0 → ∀ (k : Nat) (l l' : List (List K)), levels[k]? = some l → levels[k + 1]? = some l' → ∀ q ∈ l', q.tail ∈ l) :
    ro ≠ 0 → ∀ (k : Nat) (l lr : List (List K)), ro < k → levels[k]? = some l → levels[ro]? = some lr → ∀ q ∈ l, q.drop (k - ro) ∈ lr := by
  intro hro k l lr hk hl hlr q hq
  have gen : ∀ (d j : Nat) (l' : List (List K)), j + d = k → levels[j]? = some l' → q.drop d ∈ l' := by
    intro d
    induction d with
    | zero => intro j l' e hl'; rw [Nat.add_zero] at e; subst e; rw [hl] at hl'; cases hl'; simpa using hq
    | succ d ih =>
      intro j l' e hl'
      have hlt : j + 1 < levels.length := by
        have := (List.getElem?_eq_some_iff.1 hl).1; omega
      have h1 := ih (j + 1) (levels[j + 1]) (by omega) (List.getElem?_eq_getElem hlt)
      have := h hro j l' _ hl' (List.getElem?_eq_getElem hlt) _ h1
      rwa [List.tail_drop] at this
  exact gen (k - ro) ro lr (by omega) hlr

/-- The last words of a stored path are stored. -/
theorem drop_mem (hT : Spec.TrieData U levels ro) (hro : ro ≠ 0) {d : Nat} {l l' : List (List K)} (hl : levels[ro + d]? = some l)
    (hl' : levels[ro]? = some l') {q : List K} (hq : q ∈ l) : q.drop d ∈ l' := by
  cases d with
  | zero => rw [Nat.add_zero] at hl; rw [hl] at hl'; cases hl'; simpa using hq
  | succ d =>
    have := hT.windows hro (ro + (d + 1)) l l' (by omega) hl hl' q hq
    rwa [Nat.add_sub_cancel_left] at this

/-- Longer prefixes too. -/
theorem take_mem (hT : Spec.TrieData U levels ro) {k d : Nat} {l l' : List (List K)} (hl : levels[k + d]? = some l)
    (hl' : levels[k]? = some l') {q : List K} (hq : q ∈ l) : q.take (k + 1) ∈ l' := by
  induction d generalizing l q with
  | zero =>
    rw [Nat.add_zero] at hl; rw [hl] at hl'; cases hl'
    rw [List.take_of_length_le (Nat.le_of_eq (hT.len _ _ hl q hq))]; exact hq
  | succ d ih =>
    have hlt : k + d < levels.length := by
      have := (List.getElem?_eq_some_iff.1 hl).1; omega
    have hd := hT.prefix_closed (k + d) _ l (List.getElem?_eq_getElem hlt) (by rw [← hl]; congr 1) q hq
    have := ih (List.getElem?_eq_getElem hlt) hd
    rw [List.dropLast_eq_take, List.take_take] at this
    have hlen := hT.len _ _ hl q hq
    rwa [Nat.min_eq_left (by omega)] at this

/-- Among siblings the stored ids increase with the vocabulary id of the last word. -/
theorem storedId_lt (hT : Spec.TrieData U levels ro) {k : Nat} {l lr : List (List K)} (hl : levels[k]? = some l)
    (hlr : ro ≠ 0 → ro < k → levels[ro]? = some lr) {p : List K} {x y : K} (hx : p ++ [x] ∈ l) (hy : p ++ [y] ∈ l)
    (hxy : U.idxOf x < U.idxOf y) : Spec.storedId U lr ro (p ++ [x]) < Spec.storedId U lr ro (p ++ [y]) := by
  have hlx := hT.len k l hl _ hx
  have hly := hT.len k l hl _ hy
  unfold Spec.storedId
  rw [hlx, hly]
  split
  · simpa using hxy
  · rename_i hc
    have hro : ro ≠ 0 := by omega
    have hrk : ro < k := by omega
    have hlr := hlr hro hrk
    have hl2 : levels[ro + (k - ro)]? = some l := by rw [← hl]; congr 1; omega
    have hpl : p.length = k := by rw [List.length_append] at hlx; simpa using hlx
    have e : ∀ z, (p ++ [z]).drop (k + 1 - (ro + 1)) = p.drop (k - ro) ++ [z] := by
      intro z
      rw [List.drop_append_of_le_length (by omega)]
      congr 2; omega
    have hdx := drop_mem hT hro hl2 hlr hx
    have hdy := drop_mem hT hro hl2 hlr hy
    rw [show k - ro = k + 1 - (ro + 1) by omega, e] at hdx hdy
    rw [e, e]
    obtain ⟨i, hi, ei⟩ := List.mem_iff_getElem.1 hdx
    obtain ⟨j, hj, ej⟩ := List.mem_iff_getElem.1 hdy
    have hsr := hT.sorted ro lr hlr
    have hij : i < j := by
      by_contra hge
      have hlt : (p.drop (k - ro) ++ [x]).map U.idxOf < (p.drop (k - ro) ++ [y]).map U.idxOf := by
        rw [List.map_append, List.map_append]
        exact (concat_lt rfl).2 (.inr ⟨rfl, hxy⟩)
      by_cases hij : i = j
      · subst hij
        rw [ei] at ej
        rw [ej] at hlt
        exact lex_irrefl U _ hlt
      · have := List.pairwise_iff_getElem.1 hsr j i hj hi (by omega)
        rw [ei, ej] at this
        exact lex_irrefl U _ (lex_trans U _ _ _ hlt this)
    exact siblingRank_lt (nodup_of_sorted hsr) (by rw [List.getElem?_eq_getElem hi, ei]) (by rw [List.getElem?_eq_getElem hj, ej]) hij
      (by simp)

theorem exists_concat {q : List K} {n : Nat} (h : q.length = n + 1) : ∃ p x, q = p ++ [x] := by
  have hne : q ≠ [] := by rintro rfl; simp at h
  exact ⟨q.dropLast, q.getLast hne, (List.dropLast_concat_getLast hne).symm⟩

theorem idxOf_inj_mem {x y : K} (hx : x ∈ U) (hy : y ∈ U) (h : U.idxOf x = U.idxOf y) : x = y := by
  have := map_idx_inj (U := U) (p := [x]) (q := [y]) (by simpa using hx) (by simpa using hy) (by simpa using h)
  simpa using this

theorem storedId_inj (hT : Spec.TrieData U levels ro) {k : Nat} {l lr : List (List K)} (hl : levels[k]? = some l)
    (hlr : ro ≠ 0 → ro < k → levels[ro]? = some lr) {q q' : List K} (hq : q ∈ l) (hq' : q' ∈ l) (hd : q.dropLast = q'.dropLast)
    (h : Spec.storedId U lr ro q = Spec.storedId U lr ro q') : q = q' := by
  obtain ⟨p, x, rfl⟩ := exists_concat (hT.len k l hl q hq)
  obtain ⟨p', y, rfl⟩ := exists_concat (hT.len k l hl q' hq')
  rw [List.dropLast_concat, List.dropLast_concat] at hd
  subst hd
  rcases Nat.lt_trichotomy (U.idxOf x) (U.idxOf y) with h1 | h1 | h1
  · have := storedId_lt hT hl hlr hq hq' h1; omega
  · rw [idxOf_inj_mem (hT.words k l hl _ hq x (by simp)) (hT.words k l hl _ hq' y (by simp)) h1]
  · have := storedId_lt hT hl hlr hq' hq h1; omega

theorem storedId_bound (hT : Spec.TrieData U levels ro) {k : Nat} {l lr : List (List K)} (hl : levels[k]? = some l)
    (hlr : ro ≠ 0 → ro < k → levels[ro]? = some lr) {q : List K} (hq : q ∈ l) : Spec.storedId U lr ro q < U.length := by
  have hlen := hT.len k l hl q hq
  obtain ⟨p, x, rfl⟩ := exists_concat hlen
  have hx : x ∈ U := hT.words k l hl _ hq x (by simp)
  unfold Spec.storedId
  split
  · simpa using List.idxOf_lt_length_of_mem hx
  · rename_i hc
    have hro : ro ≠ 0 := by omega
    have hrk : ro < k := by omega
    have hlr := hlr hro hrk
    have hl2 : levels[ro + (k - ro)]? = some l := by rw [← hl]; congr 1; omega
    have hpl : p.length = k := by rw [List.length_append] at hlen; simpa using hlen
    have e : (p ++ [x]).drop ((p ++ [x]).length - (ro + 1)) = p.drop (k - ro) ++ [x] := by
      rw [hlen, List.drop_append_of_le_length (by omega)]
      congr 2; omega
    have hdx := drop_mem hT hro hl2 hlr hq
    rw [show k - ro = (p ++ [x]).length - (ro + 1) by omega, e] at hdx
    rw [e]
    have := siblingRank_le (hT.len ro lr hlr) (hT.words ro lr hlr) (hT.sorted ro lr hlr) hdx
    have := List.idxOf_lt_length_of_mem hx
    omega

/-- The ids of a level never decrease within the blocks. -/
theorem rangeSorted (hT : Spec.TrieData U levels ro) {k : Nat} {prev curr lr : List (List K)} (hp : levels[k]? = some prev)
    (hc : levels[k + 1]? = some curr) (hlr : ro ≠ 0 → ro < k + 1 → levels[ro]? = some lr) :
    Spec.RangeSorted (curr.map (Spec.storedId U lr ro)) (Spec.childPtrs List.dropLast curr prev) := by
  obtain ⟨ptrs, e1, e2, e3, e4, e5⟩ :=
    C38_pointers_delimit_children (pat := List.dropLast) (lex_irrefl U) (lex_trans U) (hT.sorted k prev hp)
      (patterns_sorted (hT.len _ curr hc) (hT.words _ curr hc) (hT.sorted _ curr hc)) (hT.prefix_closed k prev curr hp hc)
  subst e2
  intro j b e hb he i h1 h2
  have hj : j < prev.length := by
    have := (List.getElem?_eq_some_iff.1 he).1; omega
  have hen : e ≤ curr.length := by
    have hlast := e4.last
    rw [List.getLast?_eq_getElem?] at hlast
    obtain ⟨l1, l2⟩ := List.getElem?_eq_some_iff.1 hlast
    obtain ⟨h3, rfl⟩ := List.getElem?_eq_some_iff.1 he
    rw [← l2]
    by_cases hil : j + 1 = (Spec.childPtrs List.dropLast curr prev).length - 1
    · simp only [hil, Nat.le_refl]
    · exact List.pairwise_iff_getElem.1 e4.sorted _ _ h3 l1 (by omega)
  have hi : i < curr.length := by omega
  have hi1 : i + 1 < curr.length := by omega
  have g1 := (e5 j b e _ hb he (List.getElem?_eq_getElem hj) i _ (List.getElem?_eq_getElem hi)).1 ⟨by omega, by omega⟩
  have g2 := (e5 j b e _ hb he (List.getElem?_eq_getElem hj) (i + 1) _ (List.getElem?_eq_getElem hi1)).1 ⟨by omega, by omega⟩
  have hlt := List.pairwise_iff_getElem.1 (hT.sorted _ curr hc) i (i + 1) hi hi1 (by omega)
  have m1 := List.getElem_mem hi
  have m2 := List.getElem_mem hi1
  rw [List.getD_eq_getElem?_getD, List.getD_eq_getElem?_getD, List.getElem?_map, List.getElem?_map, List.getElem?_eq_getElem hi,
    List.getElem?_eq_getElem hi1]
  show Spec.storedId U lr ro curr[i] ≤ Spec.storedId U lr ro curr[i + 1]
  rcases split_lt (by rw [hT.len _ curr hc _ m1, hT.len _ curr hc _ m2])
    (by intro e; have := hT.len _ curr hc _ m1; rw [e] at this; simp at this) (hT.words _ curr hc _ m1) (hT.words _ curr hc _ m2) hlt
    with h | ⟨h1, x, y, h2, h3, h4⟩
  · rw [g1, g2] at h; exact absurd h (lex_irrefl U _)
  · rw [← h1] at h3
    rw [h2] at m1 ⊢
    rw [h3] at m2 ⊢
    exact Nat.le_of_lt (storedId_lt hT hc hlr m1 m2 h4)

/-! ### Searching for a child -/

/-- A stored child is found. -/
theorem LevelOK.child {ex : List K → Nat → Prop} {prev curr : List (List K)} {mid : List K → Nat} {ranks : List Nat} {arrs : List SortedArray} {m : Nat}
    (h : LevelOK ex prev curr mid ranks arrs m)
    (hinj : ∀ q q', q ∈ curr → q' ∈ curr → q.dropLast = q'.dropLast → mid q = mid q' → q = q') (hnd : curr.Nodup)
    (hlt : ∀ q ∈ curr, mid q < 2 ^ 64) {j i : Nat} {p : List K} {c : K} (hj : prev[j]? = some p) (hi : curr[i]? = some (p ++ [c])) :
    ∃ ap a b e, arrs[m - 1]? = some ap ∧ arrs[m]? = some a ∧ ap.pair j = some (b, e) ∧ b ≤ i ∧ i < e ∧
      a.find b e (mid (p ++ [c])) = some i := by
  obtain ⟨ap, a, h1, h2, h3, -⟩ := h.ok
  obtain ⟨b, e, g1, g2, g3, g4, g5⟩ := h3 j p hj
  have hin := (g4 i _ hi).2 (by simp)
  have hm := List.mem_of_getElem? hi
  obtain ⟨pos, q, f1, q1, q2, q3⟩ := (g5 (by omega) _ (hlt _ hm)).1 ⟨_, hm, by simp, rfl⟩
  refine ⟨ap, a, b, e, h1, h2, g1, hin.1, hin.2, ?_⟩
  have : q = p ++ [c] := hinj q _ (List.mem_of_getElem? q1) hm (by rw [q2]; simp) q3
  subst this
  rw [f1]
  have e1 := idxOf_of_nodup hnd q1
  have e2 := idxOf_of_nodup hnd hi
  rw [← e1, ← e2]

/-- In a block with children, an id that no child has is reported absent. -/
theorem LevelOK.absent {ex : List K → Nat → Prop} {prev curr : List (List K)} {mid : List K → Nat} {ranks : List Nat} {arrs : List SortedArray} {m : Nat}
    (h : LevelOK ex prev curr mid ranks arrs m) {j id : Nat} {p : List K} (hj : prev[j]? = some p) (hid : id < 2 ^ 64) (hx : ex p id)
    (hno : ∀ q ∈ curr, q.dropLast = p → mid q ≠ id) :
    ∃ ap a b e, arrs[m - 1]? = some ap ∧ arrs[m]? = some a ∧ ap.pair j = some (b, e) ∧
      (b = e ∧ (∀ q ∈ curr, q.dropLast ≠ p) ∨ b < e ∧ (∃ q ∈ curr, q.dropLast = p) ∧ a.find b e id = some NF) := by
  obtain ⟨ap, a, h1, h2, h3, -⟩ := h.ok
  obtain ⟨b, e, g1, g2, g3, g4, g5⟩ := h3 j p hj
  refine ⟨ap, a, b, e, h1, h2, g1, ?_⟩
  by_cases hbe : b < e
  · right
    have hbl : b < curr.length := by omega
    exact ⟨hbe, ⟨curr[b], List.getElem_mem hbl, (g4 b _ (List.getElem?_eq_getElem hbl)).1 ⟨by omega, hbe⟩⟩,
      (g5 hbe id hid).2 hx hno⟩
  · left
    refine ⟨by omega, ?_⟩
    intro q hq hqp
    obtain ⟨i, hi, rfl⟩ := List.mem_iff_getElem.1 hq
    have := (g4 i _ (List.getElem?_eq_getElem hi)).2 hqp
    omega

theorem unigram_at (hT : Spec.TrieData U levels ro) {l : List (List K)} (hl : levels[0]? = some l) {x : K} (hx : x ∈ U) :
    l[U.idxOf x]? = some [x] := by
  rw [hT.unigrams] at hl
  cases hl
  rw [List.getElem?_map, List.getElem?_eq_getElem (List.idxOf_lt_length_of_mem hx)]
  simp

/-- The orders `1 .. m` (indices) are built. -/
def Built (ex : List K → Nat → Prop) (U : List K) (levels : List (List (List K))) (ro : Nat) (rks : List (List Nat)) (arrs : List SortedArray) (m : Nat) : Prop :=
  ∀ k, k < m → ∀ prev curr ranks, levels[k]? = some prev → levels[k + 1]? = some curr → rks[k]? = some ranks →
    LevelOK ex prev curr (Spec.storedId U (levels.getD ro []) ro) ranks arrs (k + 1)

theorem getD_eq {l : List (List K)} {k : Nat} (h : levels[k]? = some l) : levels.getD k [] = l := by
  rw [List.getD_eq_getElem?_getD, h]; rfl

/-- `map_id` computes the position among the children of the context of length `ro`. -/
theorem mapId_spec (hT : Spec.TrieData U levels ro) {rks : List (List Nat)} (hrk : rks.length + 1 = levels.length)
    {ex : List K → Nat → Prop} {arrs : List SortedArray} (hB : Built ex U levels ro rks arrs ro) (hro : ro = 1 ∨ ro = 2) {ls lr : List (List K)}
    (hls : levels[ro - 1]? = some ls) (hlr : levels[ro]? = some lr) (hsz : ∀ (k : Nat) (l : List (List K)), levels[k]? = some l → l.length < NF)
    {s : List K} (hs : s ∈ ls) (hch : ∃ q ∈ lr, q.dropLast = s) {c : K} (hc : c ∈ U) {pp p : Nat}
    (hp : s.getLast?.map U.idxOf = some p) (hpp : ro = 2 → s.head?.map U.idxOf = some pp)
    (hex : s ++ [c] ∉ lr → ex s (U.idxOf c)) :
    mapId arrs ro p pp (U.idxOf c) =
      some (if s ++ [c] ∈ lr then Spec.siblingRank lr (s ++ [c]) else NF) := by
  have hU : ∀ x ∈ U, U.idxOf x < 2 ^ 64 := by
    intro x hx
    have h1 := List.idxOf_lt_length_of_mem hx
    have h2 := hsz 0 _ hT.unigrams
    rw [List.length_map] at h2
    unfold NF at h2; omega
  have hmid : ∀ q : List K, q.length ≤ ro + 1 → Spec.storedId U (levels.getD ro []) ro q = (q.getLast?.map U.idxOf).getD 0 := by
    intro q hq; rw [Spec.storedId, if_pos (.inr hq)]
  have hlen := hT.len _ ls hls s hs
  -- the final search, at the order with index `ro`
  have hfin : ∀ (j : Nat), ls[j]? = some s → LevelOK ex ls lr (Spec.storedId U (levels.getD ro []) ro) (rks.getD (ro - 1) []) arrs ro →
      ∃ ap a b e, arrs[ro - 1]? = some ap ∧ arrs[ro]? = some a ∧ ap.pair j = some (b, e) ∧
        mapIn a (b, e) (U.idxOf c) = some (if s ++ [c] ∈ lr then Spec.siblingRank lr (s ++ [c]) else NF) := by
    intro j hj hok
    have hmc : Spec.storedId U (levels.getD ro []) ro (s ++ [c]) = U.idxOf c := by
      rw [hmid _ (by rw [List.length_append, hlen, List.length_singleton]; omega)]; simp
    by_cases hm : s ++ [c] ∈ lr
    · obtain ⟨i, hi, ei⟩ := List.mem_iff_getElem.1 hm
      have hi' : lr[i]? = some (s ++ [c]) := by rw [List.getElem?_eq_getElem hi, ei]
      obtain ⟨ap, a, b, e, h1, h2, h3, h4, h5, h6⟩ := hok.child
        (fun q q' h h' hd he => storedId_inj hT hlr (fun _ _ => by omega) h h' hd he)
        (nodup_of_sorted (hT.sorted _ _ hlr))
        (fun q hq => by have := storedId_bound hT hlr (lr := levels.getD ro []) (fun _ _ => by omega) hq
                        have h2 := hsz 0 _ hT.unigrams
                        rw [List.length_map] at h2
                        unfold NF at h2; omega) hj hi'
      refine ⟨ap, a, b, e, h1, h2, h3, ?_⟩
      rw [hmc] at h6
      have hblk : ∀ i q, lr[i]? = some q → (b ≤ i ∧ i < e ↔ q.dropLast = s) := by
        obtain ⟨ap', a', k1, k2, k3, -⟩ := hok.ok
        rw [h1] at k1; cases k1
        obtain ⟨b', e', m1, -, -, m2, -⟩ := k3 j s hj
        rw [h3] at m1; cases m1
        exact m2
      have hsr := (siblingRank_eq (nodup_of_sorted (hT.sorted _ _ hlr)) hblk hi' (by simp)).1
      unfold mapIn
      have hne : i ≠ NF := by have := hsz _ _ hlr; omega
      rw [h6, Option.map_some, if_neg hne, if_pos hm, hsr]
    · obtain ⟨ap, a, b, e, h1, h2, h3, h4⟩ := hok.absent (id := U.idxOf c) hj (hU c hc) (hex hm) (by
        intro q hq hqs hqm
        obtain ⟨p', x, rfl⟩ := exists_concat (hT.len _ _ hlr q hq)
        rw [List.dropLast_concat] at hqs
        subst hqs
        rw [hmid _ (by rw [List.length_append, hlen, List.length_singleton]; omega)] at hqm
        have hxc : x = c := idxOf_inj_mem (hT.words _ _ hlr _ hq x (by simp)) hc (by simpa using hqm)
        subst hxc
        exact hm hq)
      refine ⟨ap, a, b, e, h1, h2, h3, ?_⟩
      rcases h4 with ⟨-, h4⟩ | ⟨-, -, h4⟩
      · obtain ⟨q, hq, hqs⟩ := hch
        exact absurd hqs (h4 q hq)
      · unfold mapIn
        rw [h4, Option.map_some, if_pos rfl, if_neg hm]
  have hgetD : ∀ k, k < rks.length → rks[k]? = some (rks.getD k []) := by
    intro k hk
    rw [List.getD_eq_getElem?_getD, List.getElem?_eq_getElem hk]; rfl
  have hrl : ro < levels.length := (List.getElem?_eq_some_iff.1 hlr).1
  rcases hro with rfl | rfl
  · -- remapping order 1
    obtain ⟨x, rfl⟩ : ∃ x, s = [x] := List.length_eq_one_iff.1 hlen
    have hx : x ∈ U := hT.words _ _ hls _ hs x (by simp)
    have hpx : p = U.idxOf x := by simpa using hp.symm
    have hok := hB 0 (by omega) ls lr _ hls hlr (hgetD 0 (by omega))
    obtain ⟨ap, a, b, e, h1, h2, h3, h4⟩ := hfin (U.idxOf x) (unigram_at hT hls hx) hok
    unfold mapId SortedArray.range
    have h1' : arrs[0]? = some ap := h1
    rw [h1', Option.bind_some, if_pos rfl, hpx, h3, Option.bind_some, h2, Option.bind_some, h4]
  · -- remapping order 2
    obtain ⟨x, y, rfl⟩ : ∃ x y, s = [x, y] := List.length_eq_two.1 hlen
    have hx : x ∈ U := hT.words _ _ hls _ hs x (by simp)
    have hy : y ∈ U := hT.words _ _ hls _ hs y (by simp)
    have hpy : p = U.idxOf y := by simpa using hp.symm
    have hppx : pp = U.idxOf x := by simpa using (hpp rfl).symm
    have hl0 : levels[0]? = some levels[0] := List.getElem?_eq_getElem (by omega)
    have hok1 := hB 0 (by omega) levels[0] ls _ hl0 hls (hgetD 0 (by omega))
    have hok2 := hB 1 (by omega) ls lr _ hls hlr (hgetD 1 (by omega))
    obtain ⟨i, hi, ei⟩ := List.mem_iff_getElem.1 hs
    have hi' : ls[i]? = some ([x] ++ [y]) := by rw [List.getElem?_eq_getElem hi, ei]; rfl
    obtain ⟨ap, a, b, e, h1, h2, h3, h4, h5, h6⟩ := hok1.child
      (fun q q' h h' hd he => storedId_inj hT hls (fun _ _ => by omega) h h' hd he)
      (nodup_of_sorted (hT.sorted _ _ hls))
      (fun q hq => by have := storedId_bound hT hls (lr := levels.getD 2 []) (fun _ _ => by omega) hq
                      have h2 := hsz 0 _ hT.unigrams
                      rw [List.length_map] at h2
                      unfold NF at h2; omega) (unigram_at hT hl0 hx) hi'
    rw [hmid _ (by simp)] at h6
    have h6' : a.find b e (U.idxOf y) = some i := by simpa using h6
    obtain ⟨ap2, a2, b2, e2, k1, k2, k3, k4⟩ := hfin i (by rw [List.getElem?_eq_getElem hi, ei]) hok2
    have h1' : arrs[0]? = some ap := h1
    have h2' : arrs[1]? = some a := h2
    have k1' : arrs[1]? = some ap2 := k1
    rw [h2'] at k1'
    cases k1'
    have hne : i ≠ NF := by have := hsz _ _ hls; omega
    unfold mapId SortedArray.next SortedArray.position SortedArray.range
    rw [h1', Option.bind_some, if_neg (by decide), hppx, h3, Option.bind_some, h2', Option.bind_some, hpy]
    simp only
    rw [h6', Option.bind_some, if_neg hne, k3, Option.map_some, Option.map_some, Option.bind_some, k2, Option.bind_some, k4]

theorem split_ctx {q : List K} {k r : Nat} (hq : q.length = k + 1) (hr : r < k) (hr0 : r ≠ 0) :
    ∃ s c, q.drop (k - r) = s ++ [c] ∧ s.length = r ∧ q.getLast? = some c ∧ s.getLast? = q[k - 1]? ∧ s.head? = q[k - r]? := by
  obtain ⟨p, c, rfl⟩ := exists_concat hq
  have hp : p.length = k := by simpa using hq
  refine ⟨p.drop (k - r), c, ?_, ?_, by simp, ?_, ?_⟩
  · rw [List.drop_append_of_le_length (by omega)]
  · rw [List.length_drop]; omega
  · rw [List.getLast?_eq_getElem?, List.getElem?_drop, List.length_drop, List.getElem?_append_left (by omega)]
    congr 1; omega
  · rw [List.head?_drop, List.getElem?_append_left (by omega)]

/-- The id the builder computes for a path. -/
theorem tokenId_spec (hT : Spec.TrieData U levels ro) {rks : List (List Nat)} (hrk : rks.length + 1 = levels.length)
    {ex : List K → Nat → Prop} {arrs : List SortedArray} {voc : K → Option Nat} (hvoc : ∀ w ∈ U, voc w = some (U.idxOf w)) (hro : ro ≤ 2)
    (hsz : ∀ (k : Nat) (l : List (List K)), levels[k]? = some l → l.length < NF) {k : Nat} {l : List (List K)}
    (hl : levels[k]? = some l) (hB : ro < k → Built ex U levels ro rks arrs ro) {q : List K} (hq : q ∈ l) :
    tokenId voc arrs ro q = some (Spec.storedId U (levels.getD ro []) ro q) := by
  have hlen := hT.len k l hl q hq
  have hw := hT.words k l hl q hq
  have hne : q ≠ [] := by rintro rfl; simp at hlen
  have hlast : q.getLast? = some (q.getLast hne) := List.getLast?_eq_some_getLast hne
  unfold tokenId Spec.storedId
  rw [hlast, Option.bind_some, hvoc _ (hw _ (List.getLast_mem hne)), Option.bind_some]
  by_cases hc : ro ≠ 0 ∧ q.length > ro + 1
  · rw [if_pos hc, if_neg (by omega)]
    have hrk' : ro < k := by omega
    have hkl : k < levels.length := (List.getElem?_eq_some_iff.1 hl).1
    obtain ⟨s, c, e1, e2, e3, e4, e5⟩ := split_ctx hlen hrk' hc.1
    have hlr : levels[ro]? = some levels[ro] := List.getElem?_eq_getElem (by omega)
    have hls : levels[ro - 1]? = some levels[ro - 1] := List.getElem?_eq_getElem (by omega)
    have hm : s ++ [c] ∈ levels[ro] := by
      rw [← e1]
      exact drop_mem hT hc.1 (by rw [← hl]; congr 1; omega) hlr hq
    have hs : s ∈ levels[ro - 1] := by
      have := hT.prefix_closed (ro - 1) _ levels[ro] hls (by rw [← hlr]; congr 1; omega) _ hm
      simpa using this
    have hcU : c ∈ U := hw c (List.mem_of_getLast? e3)
    have hcl : q.getLast hne = c := by rw [hlast] at e3; simpa using e3
    rw [hcl]
    have hq1 : q[k - 1]? = some (q[k - 1]'(by omega)) := List.getElem?_eq_getElem _
    have hq2 : q[k - ro]? = some (q[k - ro]'(by omega)) := List.getElem?_eq_getElem _
    have hb := fun {pp p : Nat} => mapId_spec (p := p) (pp := pp) hT hrk (hB hrk') (by omega) hls hlr hsz hs ⟨_, hm, by simp⟩ hcU
    have h1 : q.length - (ro + 1) = k - ro := by omega
    rw [h1, e1, getD_eq hlr]
    unfold mapIdBuild
    rw [show q.length - 1 - ro = k - ro by omega, show q.length - 2 = k - 1 by omega, hq2, Option.bind_some,
      hvoc _ (hw _ (List.getElem_mem _)), Option.bind_some]
    split
    · rename_i h2
      subst h2
      rw [hq1, Option.bind_some, hvoc _ (hw _ (List.getElem_mem _)), Option.bind_some,
        hb (by rw [e4, hq1]; rfl) (by intro _; rw [e5, hq2]; rfl) (fun h => absurd hm h), if_pos hm]
    · have h1 : ro = 1 := by omega
      subst h1
      rw [hb (by rw [e4, hq1]; rfl) (by omega) (fun h => absurd hm h), if_pos hm]
  · rw [if_neg hc, if_pos (by omega)]
    rfl

theorem LevelOK.mono {ex : List K → Nat → Prop} {prev curr : List (List K)} {mid : List K → Nat} {ranks : List Nat} {arrs arrs' : List SortedArray} {m : Nat}
    (h : LevelOK ex prev curr mid ranks arrs m)
    (h1 : ∀ a, arrs[m - 1]? = some a → ∃ a', arrs'[m - 1]? = some a' ∧ a'.pair = a.pair)
    (h2 : ∀ a, arrs[m]? = some a → ∃ a', arrs'[m]? = some a' ∧ a'.find = a.find ∧ a'.ranks = a.ranks) :
    LevelOK ex prev curr mid ranks arrs' m := by
  obtain ⟨ap, a, e1, e2, e3, e4⟩ := h.ok
  obtain ⟨ap', f1, f2⟩ := h1 ap e1
  obtain ⟨a', g1, g2, g3⟩ := h2 a e2
  exact ⟨⟨ap', a', f1, g1, by rw [f2, g2]; exact e3, by rw [g3]; exact e4⟩⟩

/-- The construction of the orders from the one with index `k` on. -/
theorem buildLevels_ok (hT : Spec.TrieData U levels ro) (hro : ro ≤ 2)
    (hsz : ∀ (k : Nat) (l : List (List K)), levels[k]? = some l → l.length + 1 < NF)
    {rks : List (List Nat)} {ws : List Nat} (hrk : rks.length + 1 = levels.length) (hws : ws.length = rks.length)
    (hrw : ∀ (k : Nat) (rs : List Nat) (w : Nat), rks[k]? = some rs → ws[k]? = some w → w ≤ 64 ∧ ∀ r ∈ rs, r < 2 ^ w)
    {voc : K → Option Nat} (hvoc : ∀ w ∈ U, voc w = some (U.idxOf w)) {G : GramsImpl} {R : RanksImpl} {ex : List K → Nat → Prop}
    (hG : ∀ (k : Nat) (prev curr : List (List K)), levels[k]? = some prev → levels[k + 1]? = some curr →
      G.Exact (exAt ex prev) (k + 2) (curr.map (Spec.storedId U (levels.getD ro []) ro)) (Spec.childPtrs List.dropLast curr prev))
    (hR : ∀ (k : Nat) (rs : List Nat), rks[k]? = some rs → R.Exact (k + 2) rs) {check : Bool}
    (k : Nat) (prev : List (List K)) (hp : levels[k]? = some prev) (arrs : List SortedArray) (hal : arrs.length = levels.length)
    (hB : Built ex U levels ro rks arrs k) :
    ∃ arrs', buildLevels G R voc check ro U.length (k + 1) prev ((levels.drop (k + 1)).zip ((rks.drop k).zip (ws.drop k))) arrs =
        some (.ok arrs') ∧ Built ex U levels ro rks arrs' (levels.length - 1) ∧ arrs'.length = levels.length ∧
      (∀ j a, j ≤ k → arrs[j]? = some a → ∃ a', arrs'[j]? = some a' ∧ a'.find = a.find ∧ a'.ranks = a.ranks) := by
  induction hd : levels.length - k generalizing k prev arrs with
  | zero =>
    have := (List.getElem?_eq_some_iff.1 hp).1; omega
  | succ d ih =>
    have hkl := (List.getElem?_eq_some_iff.1 hp).1
    by_cases hlast : k + 1 = levels.length
    · rw [List.drop_of_length_le (by omega : levels.length ≤ k + 1)]
      refine ⟨arrs, rfl, ?_, hal, fun j a _ h => ⟨a, h, rfl, rfl⟩⟩
      rw [← hlast]; exact hB
    · have hk1 : k + 1 < levels.length := by omega
      have hkr : k < rks.length := by omega
      have hkw : k < ws.length := by omega
      rw [List.drop_eq_getElem_cons hk1, List.drop_eq_getElem_cons hkr, List.drop_eq_getElem_cons hkw, List.zip_cons_cons,
        List.zip_cons_cons, buildLevels]
      have hc : levels[k + 1]? = some levels[k + 1] := List.getElem?_eq_getElem hk1
      have hU : U.length + 1 < NF := by
        have := hsz 0 _ hT.unigrams; rwa [List.length_map] at this
      have hlr : ro ≠ 0 → ro < k + 1 → levels[ro]? = some (levels.getD ro []) := by
        intro _ h
        have : levels[ro]? = some (levels[ro]'(by omega)) := List.getElem?_eq_getElem _
        rw [getD_eq this]; exact this
      obtain ⟨arrs1, b1, b2, b3, b4, b5⟩ := buildLevel_ok (G := G) (R := R) (voc := voc) (check := check) (ro := ro) (w := ws[k]) (k := k + 1)
        (U := U) (curr := levels[k + 1]) (prev := prev) (ranks := rks[k]) (arrs := arrs)
        (mid := Spec.storedId U (levels.getD ro []) ro) (n := k + 1) (by omega) (by omega) (hT.len _ _ hc) (hT.words _ _ hc)
        (hT.sorted _ _ hc) (hT.sorted _ _ hp) (hT.prefix_closed _ _ _ hp hc)
        (fun q hq => tokenId_spec hT hrk hvoc hro (fun k l h => by have := hsz k l h; omega) hc
          (fun hlt => fun k' hk' => hB k' (by omega)) hq)
        (fun q hq => storedId_bound hT hc hlr hq) (by unfold NF at hU; omega)
        (by have := hsz _ _ hc; unfold NF at this; omega) (hG k _ _ hp hc)
        (hrw k _ _ (List.getElem?_eq_getElem hkr) (List.getElem?_eq_getElem hkw)).1
        (hrw k _ _ (List.getElem?_eq_getElem hkr) (List.getElem?_eq_getElem hkw)).2 (hR k _ (List.getElem?_eq_getElem hkr))
      rw [b1, Res.bind_ok]
      have hB' : Built ex U levels ro rks arrs1 (k + 1) := by
        intro j hj pv cr rs g1 g2 g3
        by_cases hjk : j = k
        · subst hjk
          rw [hp] at g1; cases g1
          rw [hc] at g2; cases g2
          rw [List.getElem?_eq_getElem hkr] at g3; cases g3
          exact b2
        · refine (hB j (by omega) pv cr rs g1 g2 g3).mono ?_ ?_
          · intro a ha
            exact ⟨a, by rw [b4 _ (by omega) (by omega)]; exact ha, rfl⟩
          · intro a ha
            by_cases hj2 : j + 1 = k
            · have : arrs[k + 1 - 1]? = some a := by rw [← ha]; congr 1; omega
              obtain ⟨pr, hpr⟩ := b5 a this
              refine ⟨{ a with pair := pr }, ?_, rfl, rfl⟩
              rw [← hpr]; congr 1
            · exact ⟨a, by rw [b4 _ (by omega) (by omega)]; exact ha, rfl, rfl⟩
      obtain ⟨arrs2, c1, c2, c3, c4⟩ := ih (k + 1) levels[k + 1] hc arrs1 (by omega) hB' (by omega)
      refine ⟨arrs2, c1, c2, c3, ?_⟩
      intro j a hj ha
      by_cases hjk : j = k
      · obtain ⟨pr, hpr⟩ := b5 a (by rw [← ha, hjk]; rfl)
        obtain ⟨a', d1, d2, d3⟩ := c4 j _ (by omega) (by rw [hjk]; exact hpr)
        exact ⟨a', d1, d2, d3⟩
      · exact c4 j a (by omega) (by rw [b4 _ (by omega) (by omega)]; exact ha)

end Trie
end Tongrams
