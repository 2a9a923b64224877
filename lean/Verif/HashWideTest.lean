import Verif.HashWide
import Verif.OwnTests

/-! # The test of `hash_compact_vector` with wide values (C57)

`test_hash_compact_vector` sets the pairs in order, so it also passes for the widths at which `set` clears bits of the next pair. -/

set_option linter.unusedSectionVars false

namespace Tongrams.OwnTests

theorem setSeq_wide {w : Nat} : ∀ (ps : List (BitVec 32 × W)) (c : HCV 32) (done : List (BitVec 32 × W)) (m m' : Nat), m = ps.length →
    c.Wide (done ++ List.replicate m (0, 0)) m' → m' ≤ done.length → done.length ≤ m' + 1 → c.width = w → (∀ p ∈ ps, p.2.toNat < 2 ^ w) →
    ∃ c' m'', setSeq done.length ps c = some c' ∧ c'.Wide (done ++ ps) m'' ∧ c'.width = w ∧ c'.size = c.size ∧ c'.bits.length = c.bits.length
  | [], c, done, m, m', hm, h, _, _, hw, _ => by
    subst hm
    exact ⟨c, m', rfl, by simpa using h, hw, rfl, rfl⟩
  | p :: ps, c, done, m, m', hm, h, hlo, hhi, hw, hp => by
    subst hm
    obtain ⟨c1, e1, g1, w1⟩ := h.set (i := done.length) hlo (by simp) (by
      intro t ht hlt
      rw [List.getElem_append_right (by omega)]
      simp) p.1 (v := p.2) (by rw [hw]; exact hp p (by simp))
    have hs := HCV.set_sizes e1
    have e0 : (done ++ List.replicate (p :: ps).length ((0, 0) : BitVec 32 × W)).set done.length (p.1, p.2) =
        (done ++ [p]) ++ List.replicate ps.length (0, 0) := by
      rw [List.length_cons, List.replicate_succ, List.set_append_right _ _ (Nat.le_refl _), Nat.sub_self, List.set_cons_zero]
      simp
    rw [e0] at g1
    obtain ⟨c2, m2, e2, g2, w2, s2, l2⟩ := setSeq_wide ps c1 (done ++ [p]) _ _ rfl g1 (by simp) (by simp) (by rw [w1, hw]) (fun q hq => hp q (by simp [hq]))
    refine ⟨c2, m2, ?_, by simpa using g2, w2, by omega, by omega⟩
    obtain ⟨k, v⟩ := p
    rw [setSeq, e1, Option.bind_some]
    simpa using e2

end Tongrams.OwnTests

namespace Tongrams
open OwnTests

/-- C57: `test_hash_compact_vector` ends without aborting, whatever its generator draws, also for 32-bit keys with values of 33 to 63 bits, if the bits of all
pairs can be counted in 32 bits. -/
theorem C57_test_hash_compact_vector_wide {n w : Nat} (hw : 32 < w) (hw2 : w < 64) (hn : 1 ≤ n)
    (hsize : n * (32 + w) ≤ 2 ^ 32) {ps : List (BitVec 32 × W)} (hl : ps.length = n) (hv : ∀ p ∈ ps, p.2.toNat ≤ 2 ^ (w - 1)) :
    testHash 32 n w ps = some (.ok ()) := by
  obtain ⟨c, e1, g1, w1⟩ := HCV.wide_new hw hw2 hsize
  obtain ⟨c', m', e2, g2, w2, s2, l2⟩ := setSeq_wide ps c [] n 0 hl.symm (by simpa using g1) (by simp) (by simp) w1 (by
    intro p hp
    have h2 := hv p hp
    have h3 : 2 ^ (w - 1) < 2 ^ w := Nat.pow_lt_pow_right (by omega) (by omega)
    omega)
  rw [List.length_nil] at e2
  rw [List.nil_append] at g2
  have hn64 : n < 2 ^ 32 := by
    have := Nat.mul_le_mul_left n (show 32 ≤ 32 + w by omega)
    omega
  have hcs : c.size = n ∧ c.bits.length = (n * (32 + w) + (32 - 1)) / 32 := by
    unfold HCV.new at e1
    rw [if_neg (by omega), if_neg (by omega)] at e1
    cases e1
    exact ⟨rfl, by simp⟩
  have hfit : c'.Fits := ⟨by omega, by omega, by omega⟩
  have hfile := C36_file (C36_hash_compact_vector (by omega) hfit) nullHeader
  have hget : checkEach c'.get 0 ps = some (.ok ()) :=
    checkEach_ok ps 0 fun k hk => by rw [Nat.zero_add]; exact g2.get hk
  unfold testHash
  rw [if_neg (by omega), e1, Res.lift_some, Res.bind_ok, e2, Res.lift_some, Res.bind_ok, hget, Res.bind_ok, hfile, Res.lift_some, Res.bind_ok]
  exact hget

/-- Non-vacuity: values of 40 and of 63 bits. -/
example : testHash 32 2 40 [(0x12345678#32, 7#64), (0xdeadbeef#32, 5#64)] = some (.ok ()) :=
  C57_test_hash_compact_vector_wide (by omega) (by omega) (by omega) (by omega) rfl (by simp)
example : testHash 32 3 63 [(1#32, 7#64), (2#32, 0x4000000000000000#64), (3#32, 0#64)] = some (.ok ()) :=
  C57_test_hash_compact_vector_wide (by omega) (by omega) (by omega) (by omega) rfl (by simp)

end Tongrams
