import Verif.TrieProb
import Verif.Pools
import Verif.PropsBytes

/-!
# Hash tables keyed by the bytes of n-grams (mph_prob_lm.hpp, mph_count_lm.hpp)

The builders of the two hash models read the n-grams of each order in a pool and build a `single_valued_mpht` from them.
-/

namespace Tongrams

/-- Appending the records of a section to a pool of `mem` bytes, whatever `append` returns (mph_prob_lm.hpp:74-80, 144-161; for counts `load_from`,
see C40, is used instead): the records in the pool's index. -/
def poolOf {V : Type} (mem extra : Nat) (recs : List (List Byte × V)) : Option (List (List Byte × V)) :=
  ((Pool.new mem extra).run (recs.map fun r => Pool.Op.append r.1 r.2)).map fun x => x.2.records

/-- The table of one order: a `compact_vector` builder of `n` values of `width` bits is filled with the value of each record of the pool's index, and
the table is built from the byte ranges and the vector (mph_prob_lm.hpp:81-105, 163-178; mph_count_lm.hpp:46-65).  `h` is the hash function built
from the byte ranges. -/
def tableOf {V : Type} {B : Nat} (h : Mphf (List Byte) B) (width n : Nat) (value : V → Option W) (index : List (List Byte × V)) :
    Option (SVTable (List Byte) B) :=
  (CVBuilder.new n width).bind fun cvb =>
  (index.mapM fun r => value r.2).bind fun vs =>
  (cvb.fill vs).bind fun cvb =>
  SVTable.build h (index.map (·.1)) (CompactVector.ofBuilder cvb)

/-! ## Proofs -/

theorem pool_all {V : Type} (max : Nat) (recs : List (List Byte × V)) : ∀ (held : List (List Byte × V)), (∀ r ∈ recs, r.1 ≠ []) →
    (held.map (·.1.length)).sum + (recs.map (·.1.length)).sum ≤ max →
    (Spec.pool max held (recs.map fun r => Pool.Op.append r.1 r.2)).2 = held ++ recs := by
  induction recs with
  | nil => intro held _ _; simp [Spec.pool]
  | cons r rs ih =>
    intro held h1 h2
    simp only [List.map_cons, List.sum_cons] at h2
    rw [List.map_cons, Spec.pool, if_neg (h1 r List.mem_cons_self), if_pos (by omega)]
    show (Spec.pool max (held ++ [(r.1, r.2)]) _).2 = _
    rw [ih (held ++ [(r.1, r.2)]) (fun x hx => h1 x (List.mem_cons_of_mem _ hx)) (by simp; omega)]
    simp

theorem poolOf_ok {V : Type} {mem extra : Nat} {recs : List (List Byte × V)} (h1 : ∀ r ∈ recs, r.1 ≠ [])
    (h2 : (recs.map (·.1.length)).sum ≤ mem) : poolOf mem extra recs = some recs := by
  obtain ⟨p, e1, e2, -⟩ := C40_pool_contents mem extra (recs.map fun r => Pool.Op.append r.1 r.2)
  unfold poolOf
  rw [e1, Option.map_some, e2, pool_all mem recs [] h1 (by simpa using h2)]
  simp

theorem mapM_spec {α β : Type} {f : α → Option β} : ∀ {l : List α} {vs : List β}, l.mapM f = some vs →
    vs.length = l.length ∧ ∀ (i : Nat) a, l[i]? = some a → f a = vs[i]? := by
  intro l
  induction l with
  | nil => intro vs h; simp at h; subst h; simp
  | cons x xs ih =>
    intro vs h
    rw [List.mapM_cons] at h
    cases hx : f x with
    | none => rw [hx] at h; simp at h
    | some y =>
      cases hxs : xs.mapM f with
      | none => rw [hx, hxs] at h; simp at h
      | some ys =>
        rw [hx, hxs] at h
        simp at h
        subst h
        obtain ⟨h1, h2⟩ := ih hxs
        refine ⟨by simp [h1], ?_⟩
        intro i a ha
        cases i with
        | zero => simp at ha; subst ha; simpa using hx
        | succ i => simpa using h2 i a (by simpa using ha)

theorem tableOf_ok {V : Type} {B : Nat} {h : Mphf (List Byte) B} {width : Nat} {value : V → Option W} {recs : List (List Byte × V)}
    (hb : h.BuiltFrom (recs.map (·.1))) (hne : recs ≠ []) {vs : List W} (hv : recs.mapM (fun r => value r.2) = some vs)
    (hvs : ∀ v ∈ vs, v.toNat < 2 ^ width) (hw1 : 1 ≤ width)
    (hB : B = 64 ∧ width ≤ 64 ∨ B = 32 ∧ (width ≤ 32 ∨ width = 64)) (hsize : recs.length * (B + width) ≤ 2 ^ B) :
    ∃ t, tableOf h width recs.length value recs = some t ∧
      (∀ (i : Nat) (r : List Byte × V), recs[i]? = some r → ∃ v, vs[i]? = some v ∧ value r.2 = some v ∧ t.lookup r.1 = some v) ∧
      (∀ x, x ∉ recs.map (·.1) → Spec.Recognised h (recs.map (·.1)) x → t.lookup x = some notFound) := by
  have hlen : vs.length = recs.length := (mapM_spec hv).1
  obtain ⟨b, b', e1, e2, hh, -, hwid⟩ := CompactVector.fill_holds width (by omega) vs hvs
  rw [hlen] at e1
  have hwid' : (CompactVector.ofBuilder b').width = width := by
    show b'.width = _; rw [hwid]; omega
  have hne' : recs.map (·.1) ≠ [] := by simpa using hne
  have hl' : vs.length = (recs.map (·.1)).length := by simp [hlen]
  obtain ⟨t, ht, h1⟩ := C23_single_valued_present hb hne' hh hl' (by rw [hwid']; exact hB) (by rw [hwid', List.length_map]; exact hsize)
  obtain ⟨t', ht', h2⟩ := C23_single_valued_absent hb hne' hh hl' (by rw [hwid']; exact hB) (by rw [hwid', List.length_map]; exact hsize)
  rw [ht] at ht'; cases ht'
  refine ⟨t, ?_, ?_, ?_⟩
  · unfold tableOf
    rw [e1, Option.bind_some, hv, Option.bind_some, e2, Option.bind_some, ht]
  · intro i r hr
    obtain ⟨hi, rfl⟩ := List.getElem?_eq_some_iff.1 hr
    have := h1 i (by simpa using hi)
    rw [List.getElem_map] at this
    exact ⟨_, List.getElem?_eq_getElem (by omega), by rw [(mapM_spec hv).2 i _ (List.getElem?_eq_getElem hi)]; exact List.getElem?_eq_getElem (by omega), this⟩
  · intro x hx hrec
    rcases hrec with h | ⟨h3, h4⟩
    · exact absurd h hx
    · obtain ⟨p, hp, hle, h5⟩ := h2 x
      have hlt : p < (recs.map (·.1)).length := by
        rcases Nat.lt_or_ge p (recs.map (·.1)).length with h | h
        · exact h
        · exact absurd (by rw [hp]; congr 1; omega) h3
      obtain ⟨i, hi, h7, h6, -⟩ := h5 hlt
      exact h6 (h4 _ (List.getElem_mem hi) (by rw [h7, hp]))

/-- Words without spaces can be read back from the text of an n-gram. -/
theorem joinSp_inj {as bs : List (List Byte)} (ha : ∀ w ∈ as, Spec.IsWord w) (hb : ∀ w ∈ bs, Spec.IsWord w) (hl : as.length = bs.length)
    (h : joinSp as = joinSp bs) : as = bs := by
  by_cases hne : as = []
  · subst hne; exact (List.length_eq_zero_iff.1 hl.symm).symm
  have hne' : bs ≠ [] := by rintro rfl; exact hne (List.length_eq_zero_iff.1 hl)
  have hat1 : At (joinSp as) 0 (joinSp as) := by unfold At; simp
  have hat2 : At (joinSp as) 0 (joinSp bs) := by rw [← h]; exact hat1
  obtain ⟨-, ⟨it, rs, e1, e2, -⟩, -⟩ := C31_forward_iterator hat1 ha hne
  obtain ⟨-, ⟨it', rs', e1', e2', -⟩, -⟩ := C31_forward_iterator hat2 hb hne'
  rw [← h, ← hl] at e1'
  rw [e1] at e1'
  cases e1'
  rw [← e2, e2']

/-! ## Concrete hash functions over three and four byte strings, for examples -/
namespace TextExample

/-- Hashes of the `i`-th of three keys; of any other string. -/
def hasher3 (i : Nat) : BitVec 64 × BitVec 64 × BitVec 64 := [(0, 0, 0), (1, 0, 0), (1, 1, 0)].getD i (0, 1, 1)
/-- Hashes of the `i`-th of four keys; of any other string. -/
def hasher4 (i : Nat) : BitVec 64 × BitVec 64 × BitVec 64 := [(0, 0, 0), (1, 0, 0), (1, 1, 0), (1, 1, 1)].getD i (0, 1, 1)

/-- A hash function over three keys. -/
def mphf3 (keys : List (List Byte)) : Mphf (List Byte) 64 :=
  { n := 3, domain := 2, hasher := fun k => hasher3 (keys.idxOf k), bv := [0, 1, 0, 1, 2, 0] }
/-- A hash function over four keys. -/
def mphf4 (keys : List (List Byte)) : Mphf (List Byte) 64 :=
  { n := 4, domain := 2, hasher := fun k => hasher4 (keys.idxOf k), bv := [3, 3, 0, 1, 0, 1] }

def order3 : List Edge := [⟨4, 0, 2⟩, ⟨1, 2, 4⟩, ⟨3, 1, 4⟩]
def order4 : List Edge := [⟨0, 2, 4⟩, ⟨1, 2, 4⟩, ⟨3, 1, 4⟩, ⟨5, 1, 3⟩]

theorem map_idxOf {keys : List (List Byte)} (hd : keys.Nodup) {α : Type} (f : Nat → α) :
    keys.map (fun k => f (keys.idxOf k)) = (List.range keys.length).map f := by
  apply List.ext_getElem
  · simp
  · intro i h1 h2
    have hi : i < keys.length := by simpa using h1
    simp only [List.getElem_map, List.getElem_range]
    rw [hd.idxOf_getElem i hi]

theorem built3 {keys : List (List Byte)} (hl : keys.length = 3) (hd : keys.Nodup) : (mphf3 keys).BuiltFrom keys := by
  refine ⟨[(0, 2, 4), (1, 2, 4), (1, 3, 4)], order3, by rw [hl]; rfl, ?_, ⟨⟨_, List.Perm.refl _, ?_⟩, by decide⟩, ?_⟩
  · show keys.map (fun k => Mphf.nodes 2 (hasher3 (keys.idxOf k))) = _
    rw [map_idxOf hd fun i => Mphf.nodes 2 (hasher3 i), hl]; decide
  · unfold order3 Mphf.Orients
    refine List.Forall₂.cons ?_ (List.Forall₂.cons ?_ (List.Forall₂.cons ?_ List.Forall₂.nil)) <;> decide
  · have h : Mphf.assign order3 (List.replicate 6 0) = some [0, 1, 0, 1, 2, 0] := by decide
    unfold Mphf.build
    rw [hl]
    simp only [mphf3, h]
    rfl

theorem built4 {keys : List (List Byte)} (hl : keys.length = 4) (hd : keys.Nodup) : (mphf4 keys).BuiltFrom keys := by
  refine ⟨[(0, 2, 4), (1, 2, 4), (1, 3, 4), (1, 3, 5)], order4, by rw [hl]; rfl, ?_, ⟨⟨_, List.Perm.refl _, ?_⟩, by decide⟩, ?_⟩
  · show keys.map (fun k => Mphf.nodes 2 (hasher4 (keys.idxOf k))) = _
    rw [map_idxOf hd fun i => Mphf.nodes 2 (hasher4 i), hl]; decide
  · unfold order4 Mphf.Orients
    refine List.Forall₂.cons ?_ (List.Forall₂.cons ?_ (List.Forall₂.cons ?_ (List.Forall₂.cons ?_ List.Forall₂.nil))) <;> decide
  · have h : Mphf.assign order4 (List.replicate 6 0) = some [3, 3, 0, 1, 0, 1] := by decide
    unfold Mphf.build
    rw [hl]
    simp only [mphf4, h]
    rfl

theorem recognised3 {keys : List (List Byte)} (hl : keys.length = 3) (x : List Byte) : Spec.Recognised (mphf3 keys) keys x := by
  by_cases h : x ∈ keys
  · exact .inl h
  · refine .inr ?_
    have hx : keys.idxOf x = 3 := by rw [List.idxOf_eq_length h, hl]
    constructor
    · have : (mphf3 keys).lookup x = some 1 := by
        show (mphf3 keys).lookupHashes (hasher3 (keys.idxOf x)) = _
        rw [hx]; rfl
      rw [this, hl]; decide
    · intro u hu _
      have hi := List.idxOf_lt_length_of_mem hu
      show Mphf.mix (hasher3 (keys.idxOf x)) ≠ Mphf.mix (hasher3 (keys.idxOf u))
      rw [hx]
      generalize keys.idxOf u = i at *
      rw [hl] at hi
      rcases i with _ | _ | _ | i
      · decide
      · decide
      · decide
      · omega

theorem recognised4 {keys : List (List Byte)} (hl : keys.length = 4) (x : List Byte) : Spec.Recognised (mphf4 keys) keys x := by
  by_cases h : x ∈ keys
  · exact .inl h
  · refine .inr ?_
    have hx : keys.idxOf x = 4 := by rw [List.idxOf_eq_length h, hl]
    constructor
    · have : (mphf4 keys).lookup x = some 3 := by
        show (mphf4 keys).lookupHashes (hasher4 (keys.idxOf x)) = _
        rw [hx]; rfl
      rw [this, hl]; decide
    · intro u hu _
      have hi := List.idxOf_lt_length_of_mem hu
      show Mphf.mix (hasher4 (keys.idxOf x)) ≠ Mphf.mix (hasher4 (keys.idxOf u))
      rw [hx]
      generalize keys.idxOf u = i at *
      rw [hl] at hi
      rcases i with _ | _ | _ | _ | i
      · decide
      · decide
      · decide
      · decide
      · omega

end TextExample

end Tongrams
