import Verif.Trie
import Verif.IndexedCodewords
import Verif.MphTables

/-!
# The sequence types used in tries (lm_types.hpp:40-93)

Each sequence type is shown to answer as the trie needs: `fast_ef_sequence` for the word ids,
`indexed_codewords_sequence`, `prefix_summed_sequence<ef_sequence>` and `compact_vector` for the ranks.
-/

namespace Tongrams

/-- `Ranks = indexed_codewords_sequence` (indexed_codewords_sequence.hpp:12-53). -/
def RanksImpl.ic : RanksImpl where
  build _ ranks := (ICSeq.build (ranks.map (BitVec.ofNat 64))).map fun s => .ok fun i => (s.get i).map BitVec.toNat

/-- `Ranks = prefix_summed_sequence<ef_sequence>` (prefix_summed_sequence.hpp:12-31). -/
def RanksImpl.psef : RanksImpl where
  build _ ranks := Res.bind (PSEF.build ranks) fun e => some (.ok fun i => PSEF.get e i)

/-- `Ranks = compact_vector` (compact_vector.hpp:228-241), read by `access` (sorted_array.hpp:134-137,
compact_vector.hpp:255-262); `junk ord` is the memory after the array of order `ord`. -/
def RanksImpl.cv (junk : Nat → List W) : RanksImpl where
  build ord ranks := (CompactVector.buildFrom (ranks.map (BitVec.ofNat 64))).map fun cv =>
    .ok fun i => (cv.access (junk ord) i).map BitVec.toNat

namespace TrieImpl

theorem absVals_le (grams : List Nat) (M : Nat) (hM : ∀ v ∈ grams, v ≤ M) : ∀ (ps acc : List Nat),
    (∀ v ∈ acc, v ≤ acc.length * M) →
    ∀ v ∈ Spec.absVals grams ps acc, v ≤ (Spec.absVals grams ps acc).length * M := by
  intro ps
  induction ps with
  | nil => intro acc h; exact h
  | cons b ps ih =>
    cases ps with
    | nil => intro acc h; exact h
    | cons e ps =>
      intro acc h
      rw [Spec.absVals]
      apply ih
      intro v hv
      rw [List.length_append]
      rcases List.mem_append.1 hv with hv | hv
      · exact Nat.le_trans (h v hv) (Nat.mul_le_mul_right _ (by omega))
      · have hpos : 0 < (((grams.drop b).take (e - b)).map (· + acc.getLast?.getD 0)).length := List.length_pos_of_mem hv
        obtain ⟨x, hx, rfl⟩ := List.mem_map.1 hv
        have h1 := hM x (List.mem_of_mem_drop (List.mem_of_mem_take hx))
        have h2 : acc.getLast?.getD 0 ≤ acc.length * M := by
          cases hl : acc.getLast? with
          | none => simp
          | some y => exact h y (List.mem_of_getLast? hl)
        have h3 : (acc.length + 1) * M ≤
            (acc.length + (((grams.drop b).take (e - b)).map (· + acc.getLast?.getD 0)).length) * M :=
          Nat.mul_le_mul_right _ (by omega)
        rw [Nat.add_mul, Nat.one_mul] at h3
        omega

/-- `fast_ef_sequence` is exact. -/
theorem fastEF_exact {ex : Nat → Nat → Prop} {h : Nat → Mphf Nat 64} {ord : Nat} {ids ptrs : List Nat} (hne : ids ≠ [])
    (hp : Spec.Pointers ptrs ids.length) (hr : Spec.RangeSorted ids ptrs) {M : Nat} (hM : ∀ v ∈ ids, v ≤ M)
    (hb : ids.length * M < 2 ^ 64) (hn : ids.length < 2 ^ 64 - 1)
    (hh : FastEF.longBegins ptrs ≠ [] → (h ord).BuiltFrom (FastEF.longBegins ptrs)) :
    (GramsImpl.fastEF h).Exact ex ord ids ptrs := by
  have hlen := (FastEF.absVals_grouped hp).length
  obtain ⟨f, e1, e2⟩ := C14_find_exact (h := h ord) hne hp hr (by
    intro v hv
    have := absVals_le ids M hM ptrs [] (by simp) v hv
    rw [hlen] at this
    omega) hn hh
  refine ⟨fun b e id => f.find b e id, ?_, ?_⟩
  · show Res.bind (FastEF.build (h ord) ids ptrs) _ = _
    rw [e1, Res.bind_ok]
  · intro j b e h1 h2 hbe id hid
    obtain ⟨pos, g1, g2⟩ := e2 j b e h1 h2 hbe id hid
    constructor
    · rintro ⟨i, i1, i2, i3⟩
      rcases g2 with g2 | ⟨-, g2⟩
      · exact ⟨pos, g1, g2⟩
      · exact absurd i3 (g2 i i1 i2)
    · intro _ hno
      rcases g2 with ⟨k1, k2, k3⟩ | ⟨rfl, -⟩
      · exact absurd k3 (hno pos k1 k2)
      · exact g1

theorem toNat_map {ranks : List Nat} (h : ∀ r ∈ ranks, r < 2 ^ 64) {i r : Nat} (hr : ranks[i]? = some r) :
    ∃ hi : i < (ranks.map (BitVec.ofNat 64)).length, ((ranks.map (BitVec.ofNat 64))[i]).toNat = r := by
  obtain ⟨hi, rfl⟩ := List.getElem?_eq_some_iff.1 hr
  refine ⟨by rw [List.length_map]; exact hi, ?_⟩
  rw [List.getElem_map, BitVec.toNat_ofNat, Nat.mod_eq_of_lt (h _ (List.getElem_mem hi))]

theorem ic_exact {ord : Nat} {ranks : List Nat} (h : ∀ r ∈ ranks, r < 2 ^ 64 - 2) : RanksImpl.ic.Exact ord ranks := by
  obtain ⟨s, e, -, hg, -⟩ := C15_indexed_codewords_lossless (vs := ranks.map (BitVec.ofNat 64)) (by
    intro v hv
    obtain ⟨r, hr, rfl⟩ := List.mem_map.1 hv
    have := h r hr
    rw [BitVec.toNat_ofNat, Nat.mod_eq_of_lt (by omega)]; exact this)
  refine ⟨fun i => (s.get i).map BitVec.toNat, ?_, ?_⟩
  · show (ICSeq.build _).map _ = _
    rw [e, Option.map_some]
  · intro i r hr
    obtain ⟨hi, hv⟩ := toNat_map (fun r hr => by have := h r hr; omega) hr
    show (s.get i).map BitVec.toNat = _
    rw [hg i hi, Option.map_some, hv]

theorem psef_exact {ord : Nat} {ranks : List Nat} (hne : ranks ≠ []) (h : ranks.sum < 2 ^ 64) : RanksImpl.psef.Exact ord ranks := by
  obtain ⟨s, e, -, hg⟩ := C16_prefix_summed_lossless hne h
  refine ⟨fun i => PSEF.get s i, ?_, ?_⟩
  · show Res.bind (PSEF.build ranks) _ = _
    rw [e, Res.bind_ok]
  · intro i r hr
    obtain ⟨hi, rfl⟩ := List.getElem?_eq_some_iff.1 hr
    exact hg i hi

theorem buildFrom_width (vs : List W) {w : Nat} (hw1 : 1 ≤ w) (hw : w < 64) (hv : ∀ v ∈ vs, v.toNat < 2 ^ w) :
    ∃ cv, CompactVector.buildFrom vs = some cv ∧ cv.Holds vs ∧ cv.width ≤ w := by
  have hp : (2 : Nat) ^ w ≤ 2 ^ 63 := Nat.pow_le_pow_right (by omega) (by omega)
  obtain ⟨_, hmax, hmem⟩ := CompactVector.maxLoop_spec vs 0
  have hlt : (CompactVector.maxLoop vs 0).toNat < 2 ^ w := by
    rcases hmem with h | h
    · rw [h]; exact Nat.pow_pos (by omega)
    · exact hv _ h
  have hsucc : (CompactVector.maxLoop vs 0 + 1#64).toNat = (CompactVector.maxLoop vs 0).toNat + 1 := by
    rw [BitVec.toNat_add, show (1#64).toNat = 1 from rfl]; omega
  have hc := ceilLog2_spec (CompactVector.maxLoop vs 0 + 1#64)
  rw [hsucc] at hc
  obtain ⟨b, b', e, e', hh, -, hwid⟩ := CompactVector.fill_holds (ceilLog2 (CompactVector.maxLoop vs 0 + 1#64)) hc.2.2 vs
    (fun v hm => by have := hmax v hm; omega)
  refine ⟨_, by unfold CompactVector.buildFrom; simp only [e, e', Option.bind_eq_bind, Option.bind_some, Option.pure_def], hh, ?_⟩
  show b'.width ≤ w
  rw [hwid]
  by_cases hm1 : 1 < (CompactVector.maxLoop vs 0).toNat + 1
  · have h2 := hc.2.1 hm1
    generalize ceilLog2 (CompactVector.maxLoop vs 0 + 1#64) = c at *
    by_contra hgt
    have : (2 : Nat) ^ w ≤ 2 ^ (c - 1) := Nat.pow_le_pow_right (by omega) (by omega)
    omega
  · have hx : CompactVector.maxLoop vs 0 = 0#64 := BitVec.eq_of_toNat_eq (by rw [show (0#64).toNat = 0 from rfl]; omega)
    rw [hx, show ceilLog2 (0#64 + 1#64) = 0 by decide]
    omega

/-- `compact_vector` read by `access` is exact for ranks below 2^58. -/
theorem cv_exact {junk : Nat → List W} {ord : Nat} (hj : junk ord ≠ []) {ranks : List Nat} (h : ∀ r ∈ ranks, r < 2 ^ 58) :
    (RanksImpl.cv junk).Exact ord ranks := by
  obtain ⟨cv, e, hh, hw⟩ := buildFrom_width (ranks.map (BitVec.ofNat 64)) (w := 58) (by omega) (by omega) (by
    intro v hv
    obtain ⟨r, hr, rfl⟩ := List.mem_map.1 hv
    have := h r hr
    rw [BitVec.toNat_ofNat, Nat.mod_eq_of_lt (by omega)]; exact this)
  refine ⟨fun i => (cv.access (junk ord) i).map BitVec.toNat, ?_, ?_⟩
  · show (CompactVector.buildFrom _).map _ = _
    rw [e, Option.map_some]
  · intro i r hr
    obtain ⟨hi, hv⟩ := toNat_map (fun r hr => by have := h r hr; omega) hr
    show (cv.access (junk ord) i).map BitVec.toNat = _
    rw [CompactVector.access_eq_get hh.wf (by rw [hh.size]; exact hi) ?_ _ hj, hh.get hi, Option.map_some, hv]
    by_cases h57 : cv.width = 58
    · rw [h57]; omega
    · omega

end TrieImpl
end Tongrams
