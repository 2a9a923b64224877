import Verif.BinarySearch
import Verif.PropsCompactVector
import Mathlib.Data.List.Dedup
import Mathlib.Data.List.Count

/-!
# sequence_collection (sequence_collections.hpp:182-316)

`std::unordered_map` is a list of (key, value) pairs without duplicated keys whose iteration order is unknown (a
parameter); `std::sort` is a parameter that yields some sorted permutation.
-/

namespace Tongrams

/-- What is known of the iteration order of a hash table. -/
def Spec.Shuffles {α : Type} (f : List α → List α) : Prop := ∀ l, (f l).Perm l

/-- What is known of `std::sort` with comparator `lt`. -/
def Spec.Sorts {α : Type} (lt : α → α → Prop) (f : List α → List α) : Prop :=
  ∀ l, (f l).Perm l ∧ (f l).Pairwise fun a b => ¬ lt b a

/-- The library functions used by `sequence_collection::builder`: iteration order of the map, the sort on
frequencies, the sort on values. -/
structure SortLib where
  iter : List (Nat × Nat) → List (Nat × Nat)
  byFreq : List (Nat × Nat) → List (Nat × Nat)
  byValue : List (Nat × Nat) → List (Nat × Nat)

/-- Specification of these functions. -/
structure SortLib.Valid (L : SortLib) : Prop where
  iter : Spec.Shuffles L.iter
  byFreq : Spec.Sorts (fun x y => x.2 > y.2) L.byFreq
  byValue : Spec.Sorts (fun x y => x.1 < y.1) L.byValue

namespace SeqColl

/-- `eat_value` (sequence_collections.hpp:199-205). -/
def eatValue (m : List (Nat × Nat)) (v : Nat) : List (Nat × Nat) :=
  if v ∈ m.map (·.1) then m.map fun p => if p.1 = v then (p.1, p.2 + 1) else p else m ++ [(v, 1)]

/-- `build_sequence` (sequence_collections.hpp:207-248): the vector of the distinct values in rank order and the
pairs (value, rank) sorted by value.  `max_count + 1` wraps. -/
def buildSequence (L : SortLib) (m : List (Nat × Nat)) : Option (CompactVector × List (Nat × Nat)) :=
  if m = [] then some (⟨0, 0, 0, []⟩, []) else
  let sorted := L.iter m
  let maxCount := sorted.foldl (fun a p => if p.1 > a then p.1 else a) 0
  let ranked := L.byFreq sorted
  (CVBuilder.new sorted.length (ceilLog2 (BitVec.ofNat 64 maxCount + 1#64))).bind fun b =>
  (b.fill (ranked.map fun p => BitVec.ofNat 64 p.1)).map fun b =>
  (CompactVector.ofBuilder b, L.byValue (ranked.zipIdx.map fun p => (p.1.1, p.2)))

/-- The builder after eating the values of one order and `build_sequence()` (trie_count_lm.hpp:38-41,
mph_count_lm.hpp:33-37). -/
def ofValues (L : SortLib) (vals : List Nat) : Option (CompactVector × List (Nat × Nat)) :=
  buildSequence L (vals.foldl eatValue [])

/-- What `rank` makes of the result of the search (sequence_collections.hpp:254-258). -/
def rankOf : BSResult → Option (Except Unit Nat)
  | .found r => some (.ok r)
  | .absent => some (.error ())
  | .oob => none
  | .outOfSteps => none

/-- `rank(order_m1, value)` (sequence_collections.hpp:250-259); the exception is `error`. -/
def rank (pairs : List (Nat × Nat)) (v : Nat) : Option (Except Unit Nat) :=
  rankOf (binarySearch (pairsFirst pairs) (pairsSecond pairs) pairs.length v (pairs.length + 3))

/-- `access(order_m1, i)` (sequence_collections.hpp:283-286). -/
def access (cv : CompactVector) (i : Nat) : Option Nat := (cv.get i).map BitVec.toNat

/-! ## Proofs -/

theorem eat_spec (vals : List Nat) : ∀ (m : List (Nat × Nat)) (seen : List Nat), (m.map (·.1)).Nodup →
    (∀ v c, (v, c) ∈ m ↔ v ∈ seen ∧ c = seen.count v) →
    ((vals.foldl eatValue m).map (·.1)).Nodup ∧
      ∀ v c, (v, c) ∈ vals.foldl eatValue m ↔ v ∈ seen ++ vals ∧ c = (seen ++ vals).count v := by
  induction vals with
  | nil => intro m seen h1 h2; simpa using ⟨h1, h2⟩
  | cons x vals ih =>
    intro m seen h1 h2
    rw [List.foldl_cons, show seen ++ x :: vals = (seen ++ [x]) ++ vals by simp]
    have hkey : ∀ v, v ∈ m.map (·.1) ↔ v ∈ seen := by
      intro v
      constructor
      · intro h
        obtain ⟨⟨a, c⟩, hm, rfl⟩ := List.mem_map.1 h
        exact ((h2 a c).1 hm).1
      · intro h
        exact List.mem_map.2 ⟨(v, seen.count v), (h2 _ _).2 ⟨h, rfl⟩, rfl⟩
    apply ih
    · unfold eatValue
      split
      · rw [List.map_map]
        have : ((fun p : Nat × Nat => p.1) ∘ fun p : Nat × Nat => if p.1 = x then (p.1, p.2 + 1) else p) = (·.1) := by
          funext p; simp only [Function.comp]; split <;> rfl
        rw [this]; exact h1
      · rename_i hx
        rw [List.map_append]
        simp only [List.map_cons, List.map_nil]
        rw [List.nodup_append]
        refine ⟨h1, by simp, ?_⟩
        intro a ha b hb
        simp only [List.mem_singleton] at hb
        rintro rfl
        exact hx (hb ▸ ha)
    · intro v c
      unfold eatValue
      split
      · rename_i hx
        rw [hkey] at hx
        rw [List.mem_map]
        constructor
        · rintro ⟨⟨a, d⟩, hm, he⟩
          have := (h2 a d).1 hm
          simp only at he
          split at he
          · rename_i hax
            simp only [Prod.mk.injEq] at he
            obtain ⟨rfl, rfl⟩ := he
            subst hax
            refine ⟨by simp, ?_⟩
            rw [List.count_append, ← this.2]; simp
          · rename_i hax
            simp only [Prod.mk.injEq] at he
            obtain ⟨rfl, rfl⟩ := he
            refine ⟨List.mem_append_left _ this.1, ?_⟩
            rw [List.count_append, ← this.2, List.count_singleton]; simp [Ne.symm hax]
        · rintro ⟨hv, rfl⟩
          by_cases hvx : v = x
          · subst hvx
            refine ⟨(v, seen.count v), (h2 _ _).2 ⟨hx, rfl⟩, ?_⟩
            simp [List.count_append]
          · have hvs : v ∈ seen := by simpa [hvx] using hv
            refine ⟨(v, seen.count v), (h2 _ _).2 ⟨hvs, rfl⟩, ?_⟩
            rw [List.count_append, List.count_singleton]; simp [hvx, Ne.symm hvx]
      · rename_i hx
        rw [hkey] at hx
        rw [List.mem_append, List.mem_singleton, h2, Prod.mk.injEq, List.mem_append, List.mem_singleton, List.count_append]
        constructor
        · rintro (⟨hv, rfl⟩ | ⟨rfl, rfl⟩)
          · refine ⟨.inl hv, ?_⟩
            have : x ≠ v := by rintro rfl; exact hx hv
            simp [this]
          · refine ⟨.inr rfl, ?_⟩
            rw [List.count_eq_zero_of_not_mem hx]; simp
        · rintro ⟨hv | rfl, rfl⟩
          · left
            have : x ≠ v := by rintro rfl; exact hx hv
            simp [this, hv]
          · right
            rw [List.count_eq_zero_of_not_mem hx]; simp

theorem foldl_max (l : List (Nat × Nat)) : ∀ a, (∀ p ∈ l, p.1 ≤ l.foldl (fun a p => if p.1 > a then p.1 else a) a) ∧
    a ≤ l.foldl (fun a p => if p.1 > a then p.1 else a) a ∧
    (l.foldl (fun a p => if p.1 > a then p.1 else a) a = a ∨ ∃ p ∈ l, l.foldl (fun a p => if p.1 > a then p.1 else a) a = p.1) := by
  induction l with
  | nil => intro a; simp
  | cons x l ih =>
    intro a
    rw [List.foldl_cons]
    obtain ⟨h1, h2, h3⟩ := ih (if x.1 > a then x.1 else a)
    generalize l.foldl (fun a p => if p.1 > a then p.1 else a) (if x.1 > a then x.1 else a) = M at *
    refine ⟨?_, ?_, ?_⟩
    · intro p hp
      rcases List.mem_cons.1 hp with rfl | hp
      · split at h2 <;> omega
      · exact h1 p hp
    · split at h2 <;> omega
    · rcases h3 with h3 | ⟨p, hp, h3⟩
      · split at h3
        · exact .inr ⟨x, List.mem_cons_self, h3⟩
        · exact .inl h3
      · exact .inr ⟨p, List.mem_cons_of_mem _ hp, h3⟩

end SeqColl

namespace SeqColl

/-- The ranks and the vector, given the values in rank order. -/
theorem core {L : SortLib} (hL : L.Valid) {R : List (Nat × Nat)} {cv : CompactVector} (hRnd : (R.map (·.1)).Nodup)
    (hRlt : ∀ p ∈ R, p.1 < 2 ^ 64) (hsz63 : R.length < 2 ^ 63) (hh : cv.Holds (R.map fun p => BitVec.ofNat 64 p.1)) :
    cv.size = R.length ∧ (∀ i (hi : i < R.length), access cv i = some R[i].1) ∧
      ∀ r (hr : r < R.length), rank (L.byValue (R.zipIdx.map fun p => (p.1.1, p.2))) R[r].1 = some (.ok r) := by
  refine ⟨by rw [hh.size, List.length_map], ?_, ?_⟩
  · intro i hi
    unfold SeqColl.access
    rw [hh.get (by rw [List.length_map]; exact hi), Option.map_some, List.getElem_map, BitVec.toNat_ofNat,
      Nat.mod_eq_of_lt (hRlt _ (List.getElem_mem hi))]
  · obtain ⟨hq1, hq2⟩ := hL.byValue (R.zipIdx.map fun p => (p.1.1, p.2))
    generalize L.byValue (R.zipIdx.map fun p => (p.1.1, p.2)) = Q at hq1 hq2
    have hQmem : ∀ v r, (∃ hr : r < R.length, R[r].1 = v) → (v, r) ∈ Q := by
      intro v r
      rw [hq1.mem_iff, List.mem_map]
      rintro ⟨hr, rfl⟩
      exact ⟨(R[r], r), List.mem_zipIdx_iff_getElem?.2 (List.getElem?_eq_getElem hr), rfl⟩
    have hQkeys : Spec.StrictKeys Q := by
      have h1 : (Q.map (·.1)).Perm (R.map (·.1)) := by
        refine (hq1.map _).trans ?_
        rw [List.map_map]
        have : (R.zipIdx.map ((fun p : Nat × Nat => p.1) ∘ fun p : (Nat × Nat) × Nat => (p.1.1, p.2))) = R.map (·.1) := by
          conv_rhs => rw [← List.zipIdx_map_fst 0 R, List.map_map]
          rfl
        rw [this]
      have h2 : (Q.map (·.1)).Nodup := h1.nodup_iff.2 hRnd
      rw [List.Nodup, List.pairwise_map] at h2
      unfold Spec.StrictKeys
      refine (hq2.and h2).imp ?_
      rintro a b ⟨h3, h4⟩
      omega
    have hQl : Q.length = R.length := by rw [hq1.length_eq]; simp
    intro r hr
    exact congrArg rankOf (C39_binary_search_present hQkeys (by omega) (hQmem _ r ⟨hr, rfl⟩) (Nat.lt_add_of_pos_right (by decide)))

theorem pack {R : List (Nat × Nat)} {M n : Nat} (hn : n = R.length) (hM : M < 2 ^ 64 - 1) (hle : ∀ p ∈ R, p.1 ≤ M) :
    ∃ b b', CVBuilder.new n (ceilLog2 (BitVec.ofNat 64 M + 1#64)) = some b ∧
      b.fill (R.map fun p => BitVec.ofNat 64 p.1) = some b' ∧
      (CompactVector.ofBuilder b').Holds (R.map fun p => BitVec.ofNat 64 p.1) := by
  have hcl := ceilLog2_spec (BitVec.ofNat 64 M + 1#64)
  have hM1 : (BitVec.ofNat 64 M + 1#64).toNat = M + 1 := by
    rw [BitVec.toNat_add, BitVec.toNat_ofNat, Nat.mod_eq_of_lt (a := M) (by omega), BitVec.toNat_ofNat]
    omega
  rw [hM1] at hcl
  obtain ⟨b, b', e1, e2, hh, -, -⟩ := CompactVector.fill_holds (ceilLog2 (BitVec.ofNat 64 M + 1#64)) hcl.2.2
    (R.map fun p => BitVec.ofNat 64 p.1) (by
      intro v hvm
      obtain ⟨p, hp, rfl⟩ := List.mem_map.1 hvm
      have := hle p hp
      rw [BitVec.toNat_ofNat, Nat.mod_eq_of_lt (by omega)]
      omega)
  rw [List.length_map, ← hn] at e1
  exact ⟨b, b', e1, e2, hh⟩

theorem build_eq {L : SortLib} {m : List (Nat × Nat)} (hm : m ≠ []) {b b' : CVBuilder}
    (e1 : CVBuilder.new (L.iter m).length (ceilLog2 (BitVec.ofNat 64
      ((L.iter m).foldl (fun a p => if p.1 > a then p.1 else a) 0) + 1#64)) = some b)
    (e2 : b.fill ((L.byFreq (L.iter m)).map fun p => BitVec.ofNat 64 p.1) = some b') :
    buildSequence L m = some (CompactVector.ofBuilder b', L.byValue ((L.byFreq (L.iter m)).zipIdx.map fun p => (p.1.1, p.2))) := by
  unfold buildSequence
  rw [if_neg hm]
  dsimp only
  rw [e1, Option.bind_some, e2, Option.map_some]

end SeqColl

/-- C20. For every multiset of values (below 2^64 - 1), whatever the hash table iteration order and the sort are: the
collection is built, its size is the number of distinct values; each value seen has a rank below the size and
accessing its rank gives the value back; each rank is that of a value seen; and a strictly more frequent value has a
strictly smaller rank. -/
theorem C20_access_inverts_rank {L : SortLib} (hL : L.Valid) {vals : List Nat} (hv : ∀ v ∈ vals, v < 2 ^ 64 - 1)
    (hn : vals.length < 2 ^ 63) :
    ∃ cv pairs, SeqColl.ofValues L vals = some (cv, pairs) ∧ cv.size = vals.dedup.length ∧
      (∀ v ∈ vals, ∃ r, SeqColl.rank pairs v = some (.ok r) ∧ r < cv.size ∧ SeqColl.access cv r = some v) ∧
      (∀ r, r < cv.size → ∃ v ∈ vals, SeqColl.rank pairs v = some (.ok r) ∧ SeqColl.access cv r = some v) ∧
      (∀ v ∈ vals, ∀ w ∈ vals, vals.count w < vals.count v → ∀ r s, SeqColl.rank pairs v = some (.ok r) →
        SeqColl.rank pairs w = some (.ok s) → r < s) := by
  obtain ⟨hnd, hmem⟩ := SeqColl.eat_spec vals [] [] (by simp) (by simp)
  simp only [List.nil_append] at hmem
  unfold SeqColl.ofValues
  generalize vals.foldl SeqColl.eatValue [] = m at hnd hmem
  by_cases hm0 : m = []
  · subst hm0
    have hv0 : vals = [] := by
      cases vals with
      | nil => rfl
      | cons v vs => exact absurd ((hmem v ((v :: vs).count v)).2 ⟨List.mem_cons_self, rfl⟩) (by simp)
    subst hv0
    exact ⟨⟨0, 0, 0, []⟩, [], by rw [SeqColl.buildSequence, if_pos rfl], by simp, by simp, by simp, by simp⟩
  · have hp1 := hL.iter m
    obtain ⟨hp2, hs2⟩ := hL.byFreq (L.iter m)
    have hmax := SeqColl.foldl_max (L.iter m) 0
    have hRm := hp2.trans hp1
    have hRmem : ∀ v c, (v, c) ∈ L.byFreq (L.iter m) ↔ v ∈ vals ∧ c = vals.count v :=
      fun v c => by rw [hRm.mem_iff]; exact hmem v c
    have hRnd : ((L.byFreq (L.iter m)).map (·.1)).Nodup := (hRm.map _).nodup_iff.2 hnd
    have hsize : (L.byFreq (L.iter m)).length = vals.dedup.length := by
      have h1 : ((L.byFreq (L.iter m)).map (·.1)).Perm vals.dedup := by
        rw [List.perm_ext_iff_of_nodup hRnd (List.nodup_dedup _)]
        intro v
        rw [List.mem_dedup, List.mem_map]
        constructor
        · rintro ⟨⟨a, c⟩, h, rfl⟩; exact ((hRmem a c).1 h).1
        · intro h; exact ⟨(v, vals.count v), (hRmem _ _).2 ⟨h, rfl⟩, rfl⟩
      have := h1.length_eq
      rwa [List.length_map] at this
    have hMlt : (L.iter m).foldl (fun a p => if p.1 > a then p.1 else a) 0 < 2 ^ 64 - 1 := by
      rcases hmax.2.2 with h | ⟨⟨a, c⟩, h, h'⟩
      · rw [h]; omega
      · rw [h']; exact hv a ((hmem a c).1 (hp1.mem_iff.1 h)).1
    obtain ⟨b, b', e1, e2, hh⟩ := SeqColl.pack (R := L.byFreq (L.iter m)) (n := (L.iter m).length) hp2.length_eq.symm hMlt
      (fun p hp => hmax.1 p (hp2.mem_iff.1 hp))
    have hb := SeqColl.build_eq hm0 e1 e2
    obtain ⟨hsz, hacc, hrank⟩ := SeqColl.core hL hRnd
      (fun p hp => by have := hv p.1 ((hRmem p.1 p.2).1 hp).1; omega)
      (by rw [hsize]; have := (List.dedup_sublist vals).length_le; omega) hh
    generalize L.byValue ((L.byFreq (L.iter m)).zipIdx.map fun p => (p.1.1, p.2)) = Q at hb hrank
    generalize L.byFreq (L.iter m) = R at *
    have hex : ∀ v ∈ vals, ∃ r, ∃ hr : r < R.length, R[r] = (v, vals.count v) := by
      intro v hvm
      obtain ⟨i, hi, e⟩ := List.mem_iff_getElem.1 ((hRmem v _).2 ⟨hvm, rfl⟩)
      exact ⟨i, hi, e⟩
    refine ⟨_, _, hb, ?_, ?_, ?_, ?_⟩
    · rw [hsz, hsize]
    · intro v hvm
      obtain ⟨r, hr, e⟩ := hex v hvm
      refine ⟨r, ?_, by rw [hsz]; exact hr, ?_⟩
      · have := hrank r hr; rwa [e] at this
      · rw [hacc r hr, e]
    · intro r hr
      rw [hsz] at hr
      exact ⟨R[r].1, ((hRmem R[r].1 R[r].2).1 (List.getElem_mem hr)).1, hrank r hr, hacc r hr⟩
    · intro v hvm w hwm hc r s h1 h2
      obtain ⟨r', hr, e⟩ := hex v hvm
      obtain ⟨s', hs, e'⟩ := hex w hwm
      have h3 := hrank r' hr; rw [e, h1] at h3
      have h4 := hrank s' hs; rw [e', h2] at h4
      have h3 : r = r' := by simpa using h3
      have h4 : s = s' := by simpa using h4
      subst h3 h4
      by_contra hge
      rcases Nat.lt_or_ge s r with h5 | h5
      · have := List.pairwise_iff_getElem.1 hs2 s r hs hr h5
        rw [e, e'] at this
        omega
      · have : r = s := by omega
        subst this
        rw [e] at e'
        simp only [Prod.mk.injEq] at e'
        omega

/-- An insertion sort, for the examples. -/
def exInsert {α : Type} (le : α → α → Bool) (a : α) : List α → List α
  | [] => [a]
  | b :: l => if le a b then a :: b :: l else b :: exInsert le a l

/-- An insertion sort, for the examples. -/
def exSort {α : Type} (le : α → α → Bool) (l : List α) : List α := l.foldr (exInsert le) []

theorem exInsert_perm {α : Type} (le : α → α → Bool) (a : α) (l : List α) : (exInsert le a l).Perm (a :: l) := by
  induction l with
  | nil => exact List.Perm.refl _
  | cons b l ih =>
    rw [exInsert]; split
    · exact List.Perm.refl _
    · exact (ih.cons b).trans (List.Perm.swap a b l)

theorem exSort_perm {α : Type} (le : α → α → Bool) (l : List α) : (exSort le l).Perm l := by
  induction l with
  | nil => exact List.Perm.refl _
  | cons b l ih => exact (exInsert_perm le b _).trans (ih.cons b)

theorem exSort_sorted {α : Type} {le : α → α → Bool} (htot : ∀ a b, le a b = true ∨ le b a = true)
    (htr : ∀ a b c, le a b = true → le b c = true → le a c = true) (l : List α) :
    (exSort le l).Pairwise fun a b => le a b = true := by
  have key : ∀ (a : α) (l : List α), l.Pairwise (fun a b => le a b = true) → (exInsert le a l).Pairwise fun a b => le a b = true := by
    intro a l h
    induction l with
    | nil => simp [exInsert]
    | cons b l ih =>
      rw [exInsert]; split
      · rename_i hab
        refine List.Pairwise.cons ?_ h
        intro c hc
        rcases List.mem_cons.1 hc with rfl | hc
        · exact hab
        · exact htr _ _ _ hab (List.rel_of_pairwise_cons h hc)
      · rename_i hab
        refine List.Pairwise.cons ?_ (ih (List.Pairwise.of_cons h))
        intro c hc
        rcases List.mem_cons.1 ((exInsert_perm le a l).mem_iff.1 hc) with rfl | hc
        · rcases htot c b with h1 | h1
          · exact absurd h1 hab
          · exact h1
        · exact List.rel_of_pairwise_cons h hc
  induction l with
  | nil => exact List.Pairwise.nil
  | cons b l ih => exact key b _ ih

/-- A library for the examples. -/
def exLib : SortLib := ⟨id, exSort fun x y => decide (y.2 ≤ x.2), exSort fun x y => decide (x.1 ≤ y.1)⟩

/-- The hypotheses of C20 can be met: insertion sort is a valid library. -/
theorem exLib_valid : exLib.Valid where
  iter l := List.Perm.refl l
  byFreq l := by
    refine ⟨exSort_perm _ _, (exSort_sorted (le := fun x y : Nat × Nat => decide (y.2 ≤ x.2)) ?_ ?_ l).imp ?_⟩
    · intro a b; simp; omega
    · intro a b c; simp; omega
    · intro a b h; simp at h; omega
  byValue l := by
    refine ⟨exSort_perm _ _, (exSort_sorted (le := fun x y : Nat × Nat => decide (x.1 ≤ y.1)) ?_ ?_ l).imp ?_⟩
    · intro a b; simp; omega
    · intro a b c; simp; omega
    · intro a b h; simp at h; omega

/-- A run: value 7 is the most frequent and gets rank 0. -/
example : (SeqColl.ofValues exLib [9, 7, 3, 7, 7, 3]).map (fun r =>
    (r.2, SeqColl.access r.1 0, SeqColl.access r.1 1, SeqColl.access r.1 2)) =
      some ([(3, 1), (7, 0), (9, 2)], some 7, some 3, some 9) := by decide +kernel

/-- C20, defect: with the value 2^64 - 1 among those of an order, `max_count + 1` wraps to 0, the width becomes 1 and
the values read back are wrong. -/
theorem C20_largest_value_defect :
    ((SeqColl.ofValues exLib [2 ^ 64 - 1, 6]).map fun r =>
      (SeqColl.rank r.2 6, SeqColl.access r.1 1)) = some (some (.ok 1), some 1) := by decide +kernel

end Tongrams
