import Verif.BuiltFits
import Verif.PefIter

/-!
# The library's own test programs (`/repo/test`), for every run of their random generators

Property C57.  Each test program draws random data, builds a structure from it and aborts (`util::check`) if an answer differs
from what was drawn.  The programs are modelled as functions of what their generators draw; a result `.ok ()` says that the
program ends without aborting, `.error ()` that it aborts or exits with an error, `none` that it has undefined behaviour or
does not end.  Messages and timings are not modelled.
-/

set_option linter.unusedSectionVars false

namespace Tongrams.OwnTests

/-- `util::check(index, got, expected, what)`, util.hpp:354-362: aborts if they differ. -/
def check {α : Type} [DecidableEq α] (got expected : α) : Res Unit := if got = expected then some (.ok ()) else some (.error ())

/-- A loop `for (i = 0; i < n; ++i) check(i, get(i), expected[i])`: test_compact_vector.cpp:43-46, 81-83 (with `uint32_t i`, see
`testCompactVector`), test_hash_compact_vector.cpp:36-40, 51-55, test_uniform_pef_sequence.cpp:53-55. -/
def checkEach {α : Type} [DecidableEq α] (get : Nat → Option α) : Nat → List α → Res Unit
  | _, [] => some (.ok ())
  | i, x :: xs => Res.bind (Res.lift (get i)) fun g => Res.bind (check g x) fun _ => checkEach get (i + 1) xs

/-- `for (auto val : values) check(i++, val, *it++)`, test_compact_vector.cpp:52-56, 65-69, 88-92: the range-based loop compares
the iterator with `end()`; `*it` past the last drawn value is undefined.  The first argument bounds the iterations. -/
def checkIter (cv : CompactVector) : Nat → CompactVector.Iter → List W → Res Unit
  | 0, it, _ => if it.i = (cv.begin cv.size).i then some (.ok ()) else none
  | fuel + 1, it, vs =>
    if it.i = (cv.begin cv.size).i then some (.ok ())
    else Res.bind (Res.lift (it.deref cv)) fun r => Res.bind (Res.lift vs.head?) fun x => Res.bind (check r.1 x) fun _ =>
      checkIter cv fuel r.2.incr vs.tail

/-- The ten rounds of test_compact_vector.cpp:62-70. -/
def checkBuilt (n w : Nat) (v : List W) : Nat → Res Unit
  | 0 => some (.ok ())
  | k + 1 =>
    Res.bind (Res.lift (CVBuilder.new n w)) fun b => Res.bind (Res.lift (b.fill v)) fun b =>
    Res.bind (checkIter b.build n (b.build.begin 0) v) fun _ => checkBuilt n w v k

/-- `global::null_header`, util.hpp:57. -/
def nullHeader : Byte := 255#8

/-- `main` of test_compact_vector.cpp:8-97 after the command line; `v` are the `n` values drawn.  Two loops count with a 32-bit
`i` up to `n` and to `size()` (lines 43-46, 81): for 2^32 values or more they never end.  In lines 62-69 and 71 `values` is the
vector built in the last round, which is the same for all rounds. -/
def testCompactVector (n w : Nat) (v : List W) : Res Unit :=
  if w > 64 then some (.error ())
  else if n = 0 ∨ w = 0 then some (.error ())
  else
    Res.bind (Res.lift (CVBuilder.new n w)) fun cvb => Res.bind (Res.lift (cvb.fill v)) fun cvb =>
    if n ≥ 2 ^ 32 then none else
    Res.bind (checkEach (CompactVector.ofBuilder cvb).get 0 v) fun _ =>
    Res.bind (check (CompactVector.ofBuilder cvb).size n) fun _ =>
    Res.bind (checkIter (CompactVector.ofBuilder cvb) n ((CompactVector.ofBuilder cvb).begin 0) v) fun _ =>
    Res.bind (checkBuilt n w v 10) fun _ =>
    Res.bind (Res.lift (CVBuilder.new n w)) fun last => Res.bind (Res.lift (last.fill v)) fun last =>
    Res.bind (Res.lift (loadFile CompactVector.load (saveFile nullHeader last.build.save))) fun r =>
    if r.1.size > v.length then none else
    Res.bind (checkEach r.1.get 0 (v.take r.1.size)) fun _ => checkIter r.1 n (r.1.begin 0) v

/-- The loop that draws and sets the pairs, test_hash_compact_vector.cpp:25-31. -/
def setSeq {B : Nat} : Nat → List (BitVec B × W) → HCV B → Option (HCV B)
  | _, [], c => some c
  | i, (k, v) :: ps, c => (c.set i k v).bind (setSeq (i + 1) ps)

/-- `perf_test<hash_t>(n, w)`, test_hash_compact_vector.cpp:10-58, with `B`-bit keys; `ps` are the pairs drawn, the keys cut to
`B` bits by the conversion to `hash_t`.  `got.first` and `got.second` are compared in turn. -/
def testHash (B n w : Nat) (ps : List (BitVec B × W)) : Res Unit :=
  if n = 0 then some (.error ())
  else
    Res.bind (Res.lift (HCV.new B n w)) fun c => Res.bind (Res.lift (setSeq 0 ps c)) fun cv =>
    Res.bind (checkEach cv.get 0 ps) fun _ =>
    Res.bind (Res.lift (loadFile (HCV.load B) (saveFile nullHeader cv.save))) fun r =>
    checkEach r.1.get 0 ps

/-! ### The tests of the sorted sequences -/

/-- The loop that draws the ranges, test_fast_ef_sequence.cpp:39-49, test_uniform_pef_sequence.cpp:67-77: the offsets pushed;
`none` if the draws given are used up. -/
def offsets (n : Nat) : List Nat → Nat → Option (List Nat)
  | [], off => if off < n then none else some []
  | r :: ds, off => if off < n then (offsets n ds (if off + r > n then n else off + r)).map ((if off + r > n then n else off + r) :: ·) else some []

/-- `pointer_ranges`: consecutive pointers. -/
def rangesOf (ptrs : List Nat) : List (Nat × Nat) := ptrs.zip ptrs.tail

/-- The inner loop that draws the values of a range after the first, test_fast_ef_sequence.cpp:60-63,
test_uniform_pef_sequence.cpp:92-95; returns the values and the draws left. -/
def rangeVals : Nat → Nat → List Nat → Option (List Nat × List Nat)
  | 0, _, ds => some ([], ds)
  | _ + 1, _, [] => none
  | k + 1, last, d :: ds => (rangeVals k (last + d) ds).map fun r => ((last + d) :: r.1, r.2)

/-- The loop over the ranges, test_fast_ef_sequence.cpp:56-64, test_uniform_pef_sequence.cpp:88-96. -/
def genValues : List (Nat × Nat) → List Nat → Option (List Nat)
  | [], _ => some []
  | r :: rs, ds => (rangeVals (r.2 - (r.1 + 1)) 0 ds).bind fun x => (genValues rs x.2).map ((0 :: x.1) ++ ·)

/-- `auto ptr_range = pointer_ranges[j]; if (i >= ptr_range.end) { ++j; ptr_range = pointer_ranges[j]; }`: the new `j` and the
range; test_fast_ef_sequence.cpp:76-80, 90-94, test_uniform_pef_sequence.cpp:109-113, 123-127. -/
def rangeAt (ranges : List (Nat × Nat)) (i j : Nat) : Option (Nat × Nat × Nat) :=
  (ranges[j]?).bind fun r => if i ≥ r.2 then (ranges[j + 1]?).map fun r => (j + 1, r) else some (j, r)

section
variable {S I : Type} (next : I → Option (Nat × I)) (get : S → Nat → Option (Nat × S)) (find : S → Nat → Nat → Nat → Option (Nat × S))
  (ranges : List (Nat × Nat))

/-- "Testing iterator", test_fast_ef_sequence.cpp:72-84, test_uniform_pef_sequence.cpp:105-117: `next` is `it.next()`, `get` is
`seq[i]` with the state of the sequence; the subtraction is on `uint64_t`. -/
def scanLoop : List Nat → Nat → Nat → I → S → Res S
  | [], _, _, _, s => some (.ok s)
  | v :: vs, i, j, it, s =>
    Res.bind (Res.lift (rangeAt ranges i j)) fun r =>
    Res.bind (Res.lift (next it)) fun x =>
    Res.bind (Res.lift (if r.2.1 ≠ 0 then get s r.2.1 else some (0, s))) fun y =>
    Res.bind (check ((x.1 + 2 ^ 64 - y.1) % 2 ^ 64) v) fun _ => scanLoop vs (i + 1) r.1 x.2 y.2

/-- "Testing find()", test_fast_ef_sequence.cpp:86-99, test_uniform_pef_sequence.cpp:119-132. -/
def findLoop : List Nat → Nat → Nat → S → Res S
  | [], _, _, s => some (.ok s)
  | v :: vs, i, j, s =>
    Res.bind (Res.lift (rangeAt ranges i j)) fun r =>
    Res.bind (Res.lift (find s r.2.1 r.2.2 v)) fun y =>
    Res.bind (check y.1 i) fun _ => findLoop vs (i + 1) r.1 y.2

end

/-- `main` of test_fast_ef_sequence.cpp:8-103 after the command line: `lens` and `gaps` are what the two generators draw, `h` the
hash function `fast_ef_sequence::build` gets. -/
def testFastEF (h : Mphf Nat 64) (n maxLen : Nat) (lens gaps : List Nat) : Res Unit :=
  if maxLen > n then some (.error ())
  else if n = 0 ∨ maxLen = 0 then some (.error ())
  else
    Res.bind (Res.lift (offsets n lens 0)) fun offs =>
    Res.bind (Res.lift (genValues (rangesOf (0 :: offs)) gaps)) fun values =>
    Res.bind (FastEF.build h values (0 :: offs)) fun f =>
    Res.bind (Res.lift (f.ef.begin 0)) fun it =>
    Res.bind (scanLoop (fun it : EF.Iter => it.next f.ef) (fun (s : Unit) i => (f.get i).map fun v => (v, s)) (rangesOf (0 :: offs))
      values 0 0 it ()) fun s =>
    Res.bind (findLoop (fun (s : Unit) b e v => (f.find b e v).map fun p => (p, s)) (rangesOf (0 :: offs)) values 0 0 s) fun _ =>
    some (.ok ())

/-- The values of the first block, test_uniform_pef_sequence.cpp:33-37. -/
def runningSums : Nat → List Nat → List Nat
  | _, [] => []
  | last, d :: ds => (last + d) :: runningSums (last + d) ds

/-- "Testing iterator" of the first block, test_uniform_pef_sequence.cpp:46-49. -/
def nextLoop {I : Type} (next : I → Option (Nat × I)) : I → List Nat → Res Unit
  | _, [] => some (.ok ())
  | it, v :: vs => Res.bind (Res.lift (next it)) fun x => Res.bind (check x.1 v) fun _ => nextLoop next x.2 vs

/-- "Testing uniform_pef_sequence::operator[]()", test_uniform_pef_sequence.cpp:52-55. -/
def getLoop {S : Type} (get : S → Nat → Option (Nat × S)) : List Nat → Nat → S → Res Unit
  | [], _, _ => some (.ok ())
  | v :: vs, i, s => Res.bind (Res.lift (get s i)) fun x => Res.bind (check x.1 v) fun _ => getLoop get vs (i + 1) x.2

/-- First block of test_uniform_pef_sequence.cpp:26-57; `steps` are the `n` values drawn, order 2 asks for partitions of 64. -/
def testPefFirst (junkU junkD : List W) (steps : List Nat) : Res Unit :=
  Res.bind (Res.lift ((runningSums 0 steps).getLast?)) fun back =>
  Res.bind (PEF.write (runningSums 0 steps) back 2) fun f =>
  Res.bind (Res.lift (f.begin junkU junkD)) fun it =>
  Res.bind (nextLoop (f.next junkU junkD) it (runningSums 0 steps)) fun _ =>
  Res.bind (Res.lift (f.init junkU junkD)) fun e =>
  getLoop (f.get junkU junkD) (runningSums 0 steps) 0 e

/-- Second block of test_uniform_pef_sequence.cpp:59-132. -/
def testPefSecond (junkU junkD : List W) (n : Nat) (lens gaps : List Nat) : Res Unit :=
  Res.bind (Res.lift (offsets n lens 0)) fun offs =>
  Res.bind (Res.lift (genValues (rangesOf (0 :: offs)) gaps)) fun values =>
  Res.bind (PEF.build values (0 :: offs) 2) fun f =>
  Res.bind (Res.lift (f.init junkU junkD)) fun e =>
  Res.bind (Res.lift (f.begin junkU junkD)) fun it =>
  Res.bind (scanLoop (f.next junkU junkD) (f.get junkU junkD) (rangesOf (0 :: offs)) values 0 0 it e) fun e =>
  Res.bind (findLoop (f.find junkU junkD) (rangesOf (0 :: offs)) values 0 0 e) fun _ => some (.ok ())

/-- `main` of test_uniform_pef_sequence.cpp:8-136 after the command line; `junkU`, `junkD` is the memory after the upper bounds
and the data. -/
def testPef (junkU junkD : List W) (n maxLen : Nat) (steps lens gaps : List Nat) : Res Unit :=
  if n = 0 ∨ maxLen = 0 then some (.error ())
  else Res.bind (testPefFirst junkU junkD steps) fun _ => testPefSecond junkU junkD n lens gaps

/-! ## Proofs -/

theorem check_eq {α : Type} [DecidableEq α] (x : α) : check x x = some (.ok ()) := if_pos rfl

theorem checkEach_ok {α : Type} [DecidableEq α] {get : Nat → Option α} : ∀ (l : List α) (i : Nat),
    (∀ k (h : k < l.length), get (i + k) = some l[k]) → checkEach get i l = some (.ok ())
  | [], _, _ => rfl
  | x :: xs, i, h => by
    have h0 : get i = some x := h 0 (by simp)
    rw [checkEach, h0, Res.lift_some, Res.bind_ok, check_eq, Res.bind_ok]
    refine checkEach_ok xs (i + 1) fun k hk => ?_
    have := h (k + 1) (by simpa using hk)
    rwa [show i + (k + 1) = i + 1 + k by omega] at this

theorem checkIter_ok {cv : CompactVector} : ∀ (fuel : Nat) (it : CompactVector.Iter) (vs : List W),
    CompactVector.Iter.toEnd cv fuel it = some vs → checkIter cv fuel it vs = some (.ok ())
  | 0, it, vs, h => by
    unfold CompactVector.Iter.toEnd at h
    unfold checkIter
    split at h
    · rename_i hc; rw [if_pos hc]
    · cases h
  | fuel + 1, it, vs, h => by
    unfold CompactVector.Iter.toEnd at h
    unfold checkIter
    split at h
    · rename_i hc; rw [if_pos hc]
    · rename_i hc
      rw [if_neg hc]
      obtain ⟨r, e1, h⟩ := Option.bind_eq_some_iff.1 h
      obtain ⟨ws, e2, h⟩ := Option.bind_eq_some_iff.1 h
      cases h
      rw [e1, Res.lift_some, Res.bind_ok, List.head?_cons, Res.lift_some, Res.bind_ok, check_eq, Res.bind_ok]
      exact checkIter_ok fuel _ _ e2

theorem checkBuilt_ok {n w : Nat} {v : List W} {b b' : CVBuilder} (h1 : CVBuilder.new n w = some b) (h2 : b.fill v = some b')
    (h3 : CompactVector.Iter.toEnd b'.build n (b'.build.begin 0) = some v) : ∀ k, checkBuilt n w v k = some (.ok ())
  | 0 => rfl
  | k + 1 => by
    rw [checkBuilt, h1, Res.lift_some, Res.bind_ok, h2, Res.lift_some, Res.bind_ok, checkIter_ok _ _ _ h3, Res.bind_ok]
    exact checkBuilt_ok h1 h2 h3 k

theorem setSeq_holds {B : Nat} {w : Nat} : ∀ (ps : List (BitVec B × W)) (c : HCV B) (done : List (BitVec B × W)) (m : Nat), m = ps.length →
    c.Holds (done ++ List.replicate m (0, 0)) → c.width = w → (∀ p ∈ ps, p.2.toNat < 2 ^ w) →
    ∃ c', setSeq done.length ps c = some c' ∧ c'.Holds (done ++ ps) ∧ c'.width = w ∧ c'.size = c.size ∧ c'.bits.length = c.bits.length
  | [], c, done, m, hm, h, hw, _ => by
    subst hm
    exact ⟨c, rfl, by simpa using h, hw, rfl, rfl⟩
  | p :: ps, c, done, m, hm, h, hw, hp => by
    subst hm
    obtain ⟨c1, e1, g1, w1⟩ := h.set (i := done.length) (by simp) p.1 (v := p.2) (by rw [hw]; exact hp p (by simp))
    have hs := HCV.set_sizes e1
    have e0 : (done ++ List.replicate (p :: ps).length ((0, 0) : BitVec B × W)).set done.length (p.1, p.2) =
        (done ++ [p]) ++ List.replicate ps.length (0, 0) := by
      rw [List.length_cons, List.replicate_succ, List.set_append_right _ _ (Nat.le_refl _), Nat.sub_self, List.set_cons_zero]
      simp
    rw [e0] at g1
    obtain ⟨c2, e2, g2, w2, s2, l2⟩ := setSeq_holds ps c1 (done ++ [p]) _ rfl g1 (by rw [w1, hw]) (fun q hq => hp q (by simp [hq]))
    refine ⟨c2, ?_, by simpa using g2, w2, by omega, by omega⟩
    obtain ⟨k, v⟩ := p
    rw [setSeq, e1, Option.bind_some]
    simpa using e2

end Tongrams.OwnTests

namespace Tongrams
open OwnTests

/-- C57: `test_compact_vector` ends without aborting, for 1 to 2^32-1 values of 1 to 64 bits, whatever its generator draws (it
draws from 0 to 2^(w-1)). -/
theorem C57_test_compact_vector {n w : Nat} (hw : 1 ≤ w ∧ w ≤ 64) (hn : 1 ≤ n ∧ n < 2 ^ 32) {v : List W} (hl : v.length = n)
    (hv : ∀ x ∈ v, x.toNat ≤ 2 ^ (w - 1)) : testCompactVector n w v = some (.ok ()) := by
  have hv' : ∀ x ∈ v, x.toNat < 2 ^ w := by
    intro x hx
    have h1 := hv x hx
    have h2 : 2 ^ (w - 1) < 2 ^ w := Nat.pow_lt_pow_right (by omega) (by omega)
    omega
  obtain ⟨b, b', e1, e2, hh, hb, -⟩ := CompactVector.fill_holds w hw.2 v hv'
  rw [hl] at e1
  have hbe := hb hw.1
  have hend : CompactVector.Iter.toEnd (CompactVector.ofBuilder b') n ((CompactVector.ofBuilder b').begin 0) = some v := by
    have := CompactVector.iter_toEnd hh n 0 ((CompactVector.ofBuilder b').begin 0) (by omega) (by omega) rfl rfl rfl
    rwa [List.drop_zero] at this
  have hget : checkEach (CompactVector.ofBuilder b').get 0 v = some (.ok ()) :=
    checkEach_ok v 0 fun k hk => by rw [Nat.zero_add]; exact hh.get hk
  have hfit := (CVBuilder.filled_fits e1 e2 (by omega)).1
  have hfile := C36_file (C36_compact_vector hfit) nullHeader
  unfold testCompactVector
  rw [if_neg (by omega), if_neg (by omega), e1, Res.lift_some, Res.bind_ok, e2, Res.lift_some, Res.bind_ok, if_neg (by omega), hget, Res.bind_ok,
    hh.size, hl, check_eq, Res.bind_ok, checkIter_ok _ _ _ hend, Res.bind_ok, checkBuilt_ok e1 e2 (by rw [hbe]; exact hend), Res.bind_ok,
    Res.bind_ok, e2, Res.lift_some, Res.bind_ok, hbe, hfile, Res.lift_some, Res.bind_ok, if_neg (by rw [hh.size]; omega)]
  have ht : v.take (CompactVector.ofBuilder b').size = v := List.take_of_length_le (by rw [hh.size])
  rw [ht, hget, Res.bind_ok]
  exact checkIter_ok _ _ _ hend

/-- Non-vacuity: three values of five bits, among them the largest the generator draws. -/
example : testCompactVector 3 5 [16#64, 0#64, 9#64] = some (.ok ()) :=
  C57_test_compact_vector (by omega) (by omega) rfl (by simp)

/-- C57 (defect): `test_compact_vector` never ends for 2^32 values or more. -/
theorem C57_test_compact_vector_never_ends_defect {n w : Nat} (hw : 1 ≤ w ∧ w ≤ 64) (hn : 2 ^ 32 ≤ n) {v : List W} (hl : v.length = n)
    (hv : ∀ x ∈ v, x.toNat ≤ 2 ^ (w - 1)) : testCompactVector n w v = none := by
  have hv' : ∀ x ∈ v, x.toNat < 2 ^ w := by
    intro x hx
    have h1 := hv x hx
    have h2 : 2 ^ (w - 1) < 2 ^ w := Nat.pow_lt_pow_right (by omega) (by omega)
    omega
  obtain ⟨b, b', e1, e2, -⟩ := CompactVector.fill_holds w hw.2 v hv'
  rw [hl] at e1
  unfold testCompactVector
  rw [if_neg (by omega), if_neg (by omega), e1, Res.lift_some, Res.bind_ok, e2, Res.lift_some, Res.bind_ok, if_pos (by omega)]

/-- C57: `test_hash_compact_vector` ends without aborting, whatever its generator draws, for 64-bit keys with values of 1 to 64
bits and 32-bit keys with values of 1 to 32 or 64 bits, if the bits of all pairs can be counted in the type of the keys. -/
theorem C57_test_hash_compact_vector {B n w : Nat} (hB : B = 64 ∧ w ≤ 64 ∨ B = 32 ∧ (w ≤ 32 ∨ w = 64)) (h1 : 1 ≤ w) (hn : 1 ≤ n)
    (hsize : n * (B + w) ≤ 2 ^ B) {ps : List (BitVec B × W)} (hl : ps.length = n) (hv : ∀ p ∈ ps, p.2.toNat ≤ 2 ^ (w - 1)) :
    testHash B n w ps = some (.ok ()) := by
  obtain ⟨c, e1, g1, w1⟩ := HCV.new_holds hB h1 hsize
  obtain ⟨c', e2, g2, w2, s2, l2⟩ := setSeq_holds ps c [] n hl.symm (by simpa using g1) w1 (by
    intro p hp
    have h2 := hv p hp
    have h3 : 2 ^ (w - 1) < 2 ^ w := Nat.pow_lt_pow_right (by omega) (by omega)
    omega)
  rw [List.length_nil] at e2
  rw [List.nil_append] at g2
  have hw64 : w ≤ 64 := by omega
  have hnB : n ≤ 2 ^ B / B := by
    rw [Nat.le_div_iff_mul_le (by omega)]
    exact Nat.le_trans (Nat.mul_le_mul_left n (by omega)) hsize
  have hn64 : n < 2 ^ 64 ∧ (n * (B + w) + (B - 1)) / B < 2 ^ 64 := by
    rcases hB with ⟨rfl, -⟩ | ⟨rfl, -⟩
    · exact ⟨by omega, by omega⟩
    · exact ⟨by omega, by omega⟩
  have hcs : c.size = n ∧ c.bits.length = (n * (B + w) + (B - 1)) / B := by
    unfold HCV.new at e1
    rw [if_neg (by omega), if_neg (by omega)] at e1
    cases e1
    exact ⟨rfl, by simp⟩
  have hfit : c'.Fits := ⟨by omega, by omega, by omega⟩
  have hfile := C36_file (C36_hash_compact_vector (by omega) hfit) nullHeader
  have hget : checkEach c'.get 0 ps = some (.ok ()) :=
    checkEach_ok ps 0 fun k hk => by rw [Nat.zero_add]; exact g2.get hk
  unfold testHash
  rw [if_neg (by omega), e1, Res.lift_some, Res.bind_ok, e2, Res.lift_some, Res.bind_ok, hget, Res.bind_ok, hfile, Res.lift_some, Res.bind_ok]
  exact hget


/-! ### The sequence tests -/

namespace OwnTests

/-- What the generators of the sequence tests produce. -/
structure Gen (ptrs values : List Nat) (n : Nat) : Prop where
  first : ptrs[0]? = some 0
  strict : ptrs.Pairwise (· < ·)
  last : ptrs.getLast? = some n
  length : values.length = n
  zero : ∀ j b e, ptrs[j]? = some b → ptrs[j + 1]? = some e → values.getD b 0 = 0
  increase : Spec.RangeStrict values ptrs
  small : ∀ j b e, ptrs[j]? = some b → ptrs[j + 1]? = some e → ∀ i, b ≤ i → i < e → values.getD i 0 ≤ 50 * (i - b)

theorem offsets_spec {n : Nat} : ∀ (lens : List Nat) (off : Nat), off ≤ n → (∀ r ∈ lens, 1 ≤ r) → n ≤ off + lens.length →
    ∃ offs, offsets n lens off = some offs ∧ (off :: offs).Pairwise (· < ·) ∧ (off :: offs).getLast? = some n
  | [], off, h1, _, h3 => by
    have : off = n := by simpa using Nat.le_antisymm h1 h3
    subst this
    exact ⟨[], by simp [offsets], by simp, rfl⟩
  | r :: ds, off, h1, h2, h3 => by
    by_cases hc : off < n
    · have hr := h2 r (by simp)
      generalize ho : (if off + r > n then n else off + r) = o
      have ho1 : off < o ∧ o ≤ n := by rw [← ho]; split <;> omega
      obtain ⟨offs, e1, e2, e3⟩ := offsets_spec ds o ho1.2 (fun x hx => h2 x (by simp [hx])) (by
        rw [List.length_cons] at h3
        rw [← ho]
        split <;> omega)
      refine ⟨o :: offs, by rw [offsets, if_pos hc, ho, e1, Option.map_some], ?_, by rw [List.getLast?_cons_cons]; exact e3⟩
      rw [List.pairwise_cons]
      refine ⟨fun x hx => ?_, e2⟩
      rcases List.mem_cons.1 hx with rfl | hx
      · exact ho1.1
      · exact Nat.lt_trans ho1.1 ((List.pairwise_cons.1 e2).1 x hx)
    · refine ⟨[], by rw [offsets, if_neg hc], by simp, ?_⟩
      rw [show n = off by omega]; rfl

theorem rangeVals_spec : ∀ (k last : Nat) (ds : List Nat), k ≤ ds.length → (∀ d ∈ ds, 1 ≤ d ∧ d ≤ 50) →
    ∃ vs, rangeVals k last ds = some (vs, ds.drop k) ∧ vs.length = k ∧ (last :: vs).Pairwise (· < ·) ∧
      ∀ i, i < k + 1 → (last :: vs).getD i 0 ≤ last + 50 * i
  | 0, last, ds, _, _ => ⟨[], rfl, rfl, by simp, fun i hi => by
      have : i = 0 := by omega
      subst this; simp⟩
  | k + 1, last, [], h, _ => by simp at h
  | k + 1, last, d :: ds, h, hd => by
    have h0 := hd d (by simp)
    obtain ⟨vs, e1, e2, e3, e4⟩ := rangeVals_spec k (last + d) ds (by simpa using h) (fun x hx => hd x (by simp [hx]))
    refine ⟨(last + d) :: vs, by rw [rangeVals, e1]; rfl, by simp [e2], ?_, ?_⟩
    · rw [List.pairwise_cons]
      refine ⟨fun x hx => ?_, e3⟩
      rcases List.mem_cons.1 hx with rfl | hx
      · omega
      · have := (List.pairwise_cons.1 e3).1 x hx
        omega
    · intro i hi
      cases i with
      | zero => simp
      | succ i =>
        rw [List.getD_cons_succ]
        have := e4 i (by omega)
        omega

theorem rangesOf_cons (a b : Nat) (l : List Nat) : rangesOf (a :: b :: l) = (a, b) :: rangesOf (b :: l) := rfl

theorem genValues_spec : ∀ (ps : List Nat) (b : Nat) (gaps : List Nat) (n : Nat), (b :: ps).Pairwise (· < ·) → (b :: ps).getLast? = some n →
    n ≤ b + gaps.length → (∀ d ∈ gaps, 1 ≤ d ∧ d ≤ 50) →
    ∃ X, genValues (rangesOf (b :: ps)) gaps = some X ∧ b + X.length = n ∧
      ∀ j b' e', (b :: ps)[j]? = some b' → (b :: ps)[j + 1]? = some e' → X.getD (b' - b) 0 = 0 ∧
        (∀ i, b' ≤ i → i < e' → X.getD (i - b) 0 ≤ 50 * (i - b')) ∧
        ∀ i k, b' ≤ i → i < k → k < e' → X.getD (i - b) 0 < X.getD (k - b) 0
  | [], b, gaps, n, _, h2, _, _ => by
    refine ⟨[], rfl, ?_, ?_⟩
    · have : b = n := by simpa using h2
      simpa using this
    · intro j b' e' h3 h4; simp at h4
  | c :: ps, b, gaps, n, h1, h2, h3, h4 => by
    have hbc : b < c := (List.pairwise_cons.1 h1).1 c (by simp)
    have hps := (List.pairwise_cons.1 h1).2
    have hcn : c ≤ n := by
      have hm : n ∈ (c :: ps) := by rw [List.getLast?_cons_cons] at h2; exact List.mem_of_getLast? h2
      rcases List.mem_cons.1 hm with rfl | hm
      · exact Nat.le_refl _
      · exact Nat.le_of_lt ((List.pairwise_cons.1 hps).1 n hm)
    obtain ⟨vs, e1, e2, e3, e4⟩ := rangeVals_spec (c - (b + 1)) 0 gaps (by omega) h4
    obtain ⟨X, f1, f2, f3⟩ := genValues_spec ps c (gaps.drop (c - (b + 1))) n hps (by rwa [List.getLast?_cons_cons] at h2)
      (by rw [List.length_drop]; omega) (fun d hd => h4 d (List.mem_of_mem_drop hd))
    have hlen : (0 :: vs).length = c - b := by rw [List.length_cons, e2]; omega
    refine ⟨(0 :: vs) ++ X, ?_, ?_, ?_⟩
    · rw [rangesOf_cons, genValues]
      simp only
      rw [e1, Option.bind_some]
      simp only
      rw [f1, Option.map_some]
    · rw [List.length_append, hlen]; omega
    · intro j b' e' g1 g2
      have left : ∀ i, b ≤ i → i < c → ((0 :: vs) ++ X).getD (i - b) 0 = (0 :: vs).getD (i - b) 0 := by
        intro i i1 i2
        rw [List.getD_eq_getElem?_getD, List.getElem?_append_left (by omega), ← List.getD_eq_getElem?_getD]
      have right : ∀ i, c ≤ i → ((0 :: vs) ++ X).getD (i - b) 0 = X.getD (i - c) 0 := by
        intro i i1
        rw [List.getD_eq_getElem?_getD, List.getElem?_append_right (by omega), hlen, show i - b - (c - b) = i - c by omega,
          ← List.getD_eq_getElem?_getD]
      cases j with
      | zero =>
        simp only [List.getElem?_cons_zero, Option.some.injEq, List.getElem?_cons_succ] at g1 g2
        subst g1; subst g2
        refine ⟨by rw [left b (by omega) hbc, Nat.sub_self]; rfl, fun i i1 i2 => ?_, fun i k i1 i2 i3 => ?_⟩
        · rw [left i i1 i2]
          have := e4 (i - b) (by omega)
          omega
        · rw [left i i1 (by omega), left k (by omega) i3, List.getD_eq_getElem?_getD, List.getD_eq_getElem?_getD,
            List.getElem?_eq_getElem (by omega), List.getElem?_eq_getElem (by omega)]
          exact List.pairwise_iff_getElem.1 e3 (i - b) (k - b) (by omega) (by omega) (by omega)
      | succ j =>
        have hb' : c ≤ b' := by
          rw [List.getElem?_cons_succ] at g1
          cases j with
          | zero => simp only [List.getElem?_cons_zero, Option.some.injEq] at g1; omega
          | succ j =>
            rw [List.getElem?_cons_succ] at g1
            exact Nat.le_of_lt ((List.pairwise_cons.1 hps).1 b' (List.mem_of_getElem? g1))
        obtain ⟨k1, k2, k3⟩ := f3 j b' e' (by simpa using g1) (by simpa using g2)
        refine ⟨by rw [right b' hb']; exact k1, fun i i1 i2 => ?_, fun i k i1 i2 i3 => ?_⟩
        · rw [right i (by omega)]; exact k2 i i1 i2
        · rw [right i (by omega), right k (by omega)]; exact k3 i k i1 i2 i3

/-- The generators always give such pointers and values, if enough is drawn. -/
theorem gen_ok {n : Nat} {lens gaps : List Nat} (h1 : ∀ r ∈ lens, 1 ≤ r) (h2 : n ≤ lens.length)
    (h3 : ∀ d ∈ gaps, 1 ≤ d ∧ d ≤ 50) (h4 : n ≤ gaps.length) :
    ∃ offs values, offsets n lens 0 = some offs ∧ genValues (rangesOf (0 :: offs)) gaps = some values ∧ Gen (0 :: offs) values n := by
  obtain ⟨offs, e1, e2, e3⟩ := offsets_spec lens 0 (Nat.zero_le n) h1 (by omega)
  obtain ⟨X, f1, f2, f3⟩ := genValues_spec offs 0 gaps n e2 e3 (by omega) h3
  refine ⟨offs, X, e1, f1, rfl, e2, e3, by omega, ?_, ?_, ?_⟩
  · intro j b e g1 g2
    simpa using (f3 j b e g1 g2).1
  · intro j b e g1 g2 i k i1 i2 i3
    simpa using (f3 j b e g1 g2).2.2 i k i1 i2 i3
  · intro j b e g1 g2 i i1 i2
    simpa using (f3 j b e g1 g2).2.1 i i1 i2

namespace Gen
variable {ptrs values : List Nat} {n : Nat}

theorem pointers (g : Gen ptrs values n) : Spec.Pointers ptrs values.length :=
  ⟨g.first, g.strict.imp Nat.le_of_lt, by rw [g.length]; exact g.last⟩

theorem abs_le (g : Gen ptrs values n) : ∀ i, i < n → (Spec.absVals values ptrs []).getD i 0 ≤ 50 * i := by
  have hg := FastEF.absVals_grouped g.pointers
  intro i
  induction i using Nat.strongRecOn with
  | ind i ih =>
    intro hi
    obtain ⟨j, b, e, h1, h2, h3, h4⟩ := FastEF.exists_range g.pointers (i := i) (by rw [g.length]; exact hi)
    rw [hg.val j b e h1 h2 i h3 h4]
    have h5 := g.small j b e h1 h2 i h3 h4
    unfold Spec.before
    split
    · omega
    · have := ih (b - 1) (by omega) (by omega)
      omega

theorem abs_lt (g : Gen ptrs values n) {u : Nat} (hu : 50 * n < u) : ∀ v ∈ Spec.absVals values ptrs [], v < u := by
  intro v hv
  have hl := (FastEF.absVals_grouped g.pointers).length
  obtain ⟨i, hi, e⟩ := List.mem_iff_getElem.1 hv
  have := g.abs_le i (by rw [← g.length, ← hl]; exact hi)
  rw [List.getD_eq_getElem?_getD, List.getElem?_eq_getElem hi, Option.getD_some, e] at this
  have : i < n := by rw [← g.length, ← hl]; exact hi
  omega

/-- The value the test subtracts is the one that precedes the range. -/
theorem base (g : Gen ptrs values n) {j b e : Nat} (h1 : ptrs[j]? = some b) (h2 : ptrs[j + 1]? = some e) (hbe : b < e) :
    Spec.before (Spec.absVals values ptrs []) b = if b = 0 then 0 else (Spec.absVals values ptrs []).getD b 0 := by
  have := (FastEF.absVals_grouped g.pointers).val j b e h1 h2 b (Nat.le_refl _) hbe
  rw [g.zero j b e h1 h2, Nat.zero_add] at this
  split
  · rename_i h; rw [h]; rfl
  · rw [this]

theorem rangesOf_get {l : List Nat} {j b e : Nat} : (rangesOf l)[j]? = some (b, e) ↔ l[j]? = some b ∧ l[j + 1]? = some e := by
  unfold rangesOf
  rw [List.getElem?_zip_eq_some (z := (b, e)), List.getElem?_tail]

/-- The invariant of `j`: its range contains `i` or ends there. -/
def J (ptrs : List Nat) (i j : Nat) : Prop := ∃ b e, ptrs[j]? = some b ∧ ptrs[j + 1]? = some e ∧ b ≤ i ∧ i ≤ e

theorem start (g : Gen ptrs values n) (hn : 0 < n) : J ptrs 0 0 := by
  have hl : 1 < ptrs.length := by
    have h1 := g.first
    have h2 := g.last
    rcases ptrs with _ | ⟨a, _ | ⟨b, l⟩⟩
    · cases h1
    · simp only [List.getElem?_cons_zero, Option.some.injEq, List.getLast?_singleton] at h1 h2; omega
    · simp
  exact ⟨0, ptrs[1], g.first, List.getElem?_eq_getElem hl, Nat.le_refl _, Nat.zero_le _⟩

theorem rangeAt_ok (g : Gen ptrs values n) {i j : Nat} (hj : J ptrs i j) (hi : i < n) :
    ∃ j' b e, rangeAt (rangesOf ptrs) i j = some (j', b, e) ∧ ptrs[j']? = some b ∧ ptrs[j' + 1]? = some e ∧ b ≤ i ∧ i < e := by
  obtain ⟨b, e, h1, h2, h3, h4⟩ := hj
  have hr := rangesOf_get.2 ⟨h1, h2⟩
  unfold rangeAt
  rw [hr, Option.bind_some]
  simp only
  by_cases hc : i ≥ e
  · rw [if_pos hc]
    have he : i = e := by omega
    subst he
    have hlt : j + 1 + 1 < ptrs.length := by
      have hl := g.last
      have hj := (List.getElem?_eq_some_iff.1 h2).1
      rcases Nat.lt_or_ge (j + 1 + 1) ptrs.length with h | h
      · exact h
      · rw [List.getLast?_eq_getElem?, show ptrs.length - 1 = j + 1 by omega, h2] at hl
        cases hl; omega
    refine ⟨j + 1, i, ptrs[j + 1 + 1], ?_, h2, List.getElem?_eq_getElem hlt, Nat.le_refl _, ?_⟩
    · rw [rangesOf_get.2 ⟨h2, List.getElem?_eq_getElem hlt⟩, Option.map_some]
    · obtain ⟨q, hq⟩ := List.getElem?_eq_some_iff.1 h2
      have := List.pairwise_iff_getElem.1 g.strict (j + 1) (j + 1 + 1) q hlt (by omega)
      rw [hq] at this
      exact this
  · rw [if_neg hc]
    exact ⟨j, b, e, rfl, h1, h2, h3, by omega⟩

end Gen

/-- The iterator yields these values next. -/
def Yields {I : Type} (next : I → Option (Nat × I)) : I → List Nat → Prop
  | _, [] => True
  | it, v :: vs => ∃ it', next it = some (v, it') ∧ Yields next it' vs

theorem nextLoop_ok {I : Type} {next : I → Option (Nat × I)} : ∀ (vs : List Nat) (it : I), Yields next it vs → nextLoop next it vs = some (.ok ())
  | [], _, _ => rfl
  | v :: vs, it, ⟨it', e, h⟩ => by
    rw [nextLoop, e, Res.lift_some, Res.bind_ok, check_eq, Res.bind_ok]
    exact nextLoop_ok vs it' h

section
variable {S I : Type} {next : I → Option (Nat × I)} {get : S → Nat → Option (Nat × S)} {find : S → Nat → Nat → Nat → Option (Nat × S)}
  {ptrs values : List Nat} {n : Nat} {P : S → Prop}

theorem scanLoop_ok (g : Gen ptrs values n) (hn : 50 * n < 2 ^ 64)
    (hget : ∀ (s : S) (j b : Nat), P s → ptrs[j]? = some b → b ≠ 0 → b < n → ∃ s', get s b = some ((Spec.absVals values ptrs []).getD b 0, s') ∧ P s') :
    ∀ (vs : List Nat) (i j : Nat) (it : I) (s : S), vs = values.drop i → (i < n → Gen.J ptrs i j) →
      Yields next it ((Spec.absVals values ptrs []).drop i) → P s →
      ∃ s', scanLoop next get (rangesOf ptrs) vs i j it s = some (.ok s') ∧ P s'
  | [], _, _, _, s, _, _, _, hp => ⟨s, rfl, hp⟩
  | v :: vs, i, j, it, s, hv, hj, hy, hp => by
    have hg := FastEF.absVals_grouped g.pointers
    have hi : i < values.length := by
      rcases Nat.lt_or_ge i values.length with h | h
      · exact h
      · rw [List.drop_eq_nil_of_le h] at hv; cases hv
    have hin : i < n := by rw [← g.length]; exact hi
    have hi' : i < (Spec.absVals values ptrs []).length := by rw [hg.length]; exact hi
    rw [List.drop_eq_getElem_cons hi] at hv
    rw [List.drop_eq_getElem_cons hi'] at hy
    obtain ⟨it', e1, hy⟩ := hy
    obtain ⟨j', b, e, r1, r2, r3, r4, r5⟩ := g.rangeAt_ok (hj hin) hin
    have hb : ∃ s', (if b ≠ 0 then get s b else some (0, s)) = some (Spec.before (Spec.absVals values ptrs []) b, s') ∧ P s' := by
      rw [g.base r2 r3 (by omega)]
      by_cases hb : b = 0
      · rw [if_neg (by simpa using hb), if_pos hb]; exact ⟨s, rfl, hp⟩
      · rw [if_pos hb, if_neg hb]; exact hget s j' b hp r2 hb (by omega)
    obtain ⟨s', e2, hp'⟩ := hb
    have hval := hg.val j' b e r2 r3 i r4 r5
    have hlt := g.abs_le i hin
    rw [scanLoop, r1, Res.lift_some, Res.bind_ok, e1, Res.lift_some, Res.bind_ok]
    simp only
    rw [e2, Res.lift_some, Res.bind_ok]
    have hx : (Spec.absVals values ptrs [])[i] = (Spec.absVals values ptrs []).getD i 0 := by
      rw [List.getD_eq_getElem?_getD, List.getElem?_eq_getElem hi']; rfl
    have hvv : v = values.getD i 0 := by
      rw [List.getD_eq_getElem?_getD, List.getElem?_eq_getElem hi]; exact (List.cons.inj hv).1
    have hc : ((Spec.absVals values ptrs [])[i] + 2 ^ 64 - Spec.before (Spec.absVals values ptrs []) b) % 2 ^ 64 = v := by
      rw [hx, hvv, hval, show values.getD i 0 + Spec.before (Spec.absVals values ptrs []) b + 2 ^ 64 - Spec.before (Spec.absVals values ptrs []) b =
        values.getD i 0 + 2 ^ 64 by omega, Nat.add_mod_right, Nat.mod_eq_of_lt (by omega)]
    rw [hc, check_eq, Res.bind_ok]
    exact scanLoop_ok g hn hget vs (i + 1) j' it' s' (List.cons.inj hv).2 (fun _ => ⟨b, e, r2, r3, by omega, by omega⟩) hy hp'

theorem findLoop_ok (g : Gen ptrs values n)
    (hfind : ∀ (s : S) (j b e i : Nat), P s → ptrs[j]? = some b → ptrs[j + 1]? = some e → b ≤ i → i < e →
      ∃ s', find s b e (values.getD i 0) = some (i, s') ∧ P s') :
    ∀ (vs : List Nat) (i j : Nat) (s : S), vs = values.drop i → (i < n → Gen.J ptrs i j) → P s →
      ∃ s', findLoop find (rangesOf ptrs) vs i j s = some (.ok s') ∧ P s'
  | [], _, _, s, _, _, hp => ⟨s, rfl, hp⟩
  | v :: vs, i, j, s, hv, hj, hp => by
    have hi : i < values.length := by
      rcases Nat.lt_or_ge i values.length with h | h
      · exact h
      · rw [List.drop_eq_nil_of_le h] at hv; cases hv
    have hin : i < n := by rw [← g.length]; exact hi
    rw [List.drop_eq_getElem_cons hi] at hv
    have hvv : v = values.getD i 0 := by
      rw [List.getD_eq_getElem?_getD, List.getElem?_eq_getElem hi]; exact (List.cons.inj hv).1
    obtain ⟨j', b, e, r1, r2, r3, r4, r5⟩ := g.rangeAt_ok (hj hin) hin
    obtain ⟨s', e1, hp'⟩ := hfind s j' b e i hp r2 r3 r4 r5
    rw [findLoop, r1, Res.lift_some, Res.bind_ok]
    simp only
    rw [hvv, e1, Res.lift_some, Res.bind_ok, check_eq, Res.bind_ok]
    exact findLoop_ok g hfind vs (i + 1) j' s' (List.cons.inj hv).2 (fun _ => ⟨b, e, r2, r3, by omega, by omega⟩) hp'

end

theorem ef_yields {e : EF} : ∀ (vs : List Nat) (it : EF.Iter), it.take e vs.length = some vs → Yields (fun it : EF.Iter => it.next e) it vs
  | [], _, _ => trivial
  | v :: vs, it, h => by
    rw [List.length_cons, EF.Iter.take] at h
    obtain ⟨r, e1, h⟩ := Option.bind_eq_some_iff.1 h
    obtain ⟨ws, e2, h⟩ := Option.map_eq_some_iff.1 h
    injection h with ha hb
    subst hb
    refine ⟨r.2, ?_, ef_yields _ _ e2⟩
    show it.next e = _
    rw [e1, ← ha]

theorem pef_yields {f : PEF} {junkU junkD : List W} : ∀ (vs : List Nat) (it : PIter), f.takeNext junkU junkD vs.length it = some vs →
    Yields (f.next junkU junkD) it vs
  | [], _, _ => trivial
  | v :: vs, it, h => by
    rw [List.length_cons, PEF.takeNext] at h
    obtain ⟨r, e1, h⟩ := Option.bind_eq_some_iff.1 h
    obtain ⟨ws, e2, h⟩ := Option.map_eq_some_iff.1 h
    injection h with ha hb
    subst hb
    refine ⟨r.2, ?_, pef_yields _ _ e2⟩
    rw [e1, ← ha]

end OwnTests


/-- C57: `test_fast_ef_sequence` ends without aborting for every `1 ≤ max_range_len ≤ num_of_values`, whatever its generators draw
(lengths from 1 to `max_range_len`, gaps from 1 to 50), if the values fit 64 bits and the hash function over the starts of the
ranges of 128 or more is built. -/
theorem C57_test_fast_ef_sequence {h : Mphf Nat 64} {n maxLen : Nat} {lens gaps : List Nat} (hm : 1 ≤ maxLen ∧ maxLen ≤ n)
    (hn : 50 * n < 2 ^ 64) (h1 : ∀ r ∈ lens, 1 ≤ r ∧ r ≤ maxLen) (h2 : n ≤ lens.length) (h3 : ∀ d ∈ gaps, 1 ≤ d ∧ d ≤ 50)
    (h4 : n ≤ gaps.length)
    (hh : ∀ offs, offsets n lens 0 = some offs → FastEF.longBegins (0 :: offs) ≠ [] → h.BuiltFrom (FastEF.longBegins (0 :: offs))) :
    testFastEF h n maxLen lens gaps = some (.ok ()) := by
  obtain ⟨offs, values, e1, e2, g⟩ := gen_ok (fun r hr => (h1 r hr).1) h2 h3 h4
  have hne : values ≠ [] := by
    intro hc
    have := g.length
    rw [hc] at this
    simp at this
    omega
  have hl := (FastEF.absVals_grouped g.pointers).length
  have hlen := g.length
  obtain ⟨f, e3, hf, -⟩ := FastEF.build_spec hne g.pointers g.increase.sorted (g.abs_lt hn) (by omega) (hh offs e1)
  obtain ⟨f', e3', hfind⟩ := C14_find_exact hne g.pointers g.increase.sorted (g.abs_lt hn) (by omega) (hh offs e1)
  rw [e3] at e3'
  cases e3'
  obtain ⟨it, e4, hit, hi0⟩ := EF.begin_spec hf.ef (i := 0) (by omega)
  have htake := EF.iter_take hf.ef (Spec.absVals values (0 :: offs) []).length it hit (by omega)
  rw [hi0, List.drop_zero, List.take_length] at htake
  unfold testFastEF
  rw [if_neg (by omega), if_neg (by omega), e1, Res.lift_some, Res.bind_ok, e2, Res.lift_some, Res.bind_ok, e3, Res.bind_ok, e4, Res.lift_some,
    Res.bind_ok]
  obtain ⟨s1, e5, -⟩ := scanLoop_ok (next := fun it : EF.Iter => it.next f.ef) (get := fun (s : Unit) i => (f.get i).map fun v => (v, s))
    (P := fun _ => True) g hn
    (fun s j b _ hb hb0 hbn => ⟨s, by
      rw [show f.get b = _ from hf.ef.get (by omega), Option.map_some], trivial⟩)
    values 0 0 it () rfl (fun hn0 => g.start hn0) (by rw [List.drop_zero]; exact ef_yields _ _ htake) trivial
  rw [e5, Res.bind_ok]
  obtain ⟨s2, e6, -⟩ := findLoop_ok (find := fun (s : Unit) b e v => (f.find b e v).map fun p => (p, s)) (P := fun _ => True) g
    (fun s j b e i _ r1 r2 r3 r4 => ⟨s, by
      have hen := g.pointers.range_le r2
      have hsm := g.small j b e r1 r2 i r3 r4
      obtain ⟨pos, q1, q2⟩ := hfind j b e r1 r2 (by omega) (values.getD i 0) (by omega)
      rw [q1, Option.map_some]
      rcases q2 with ⟨q3, q4, q5⟩ | ⟨-, q3⟩
      · rcases Nat.lt_trichotomy pos i with hc | hc | hc
        · have := g.increase j b e r1 r2 pos i q3 hc r4; omega
        · rw [hc]
        · have := g.increase j b e r1 r2 i pos r3 hc q4; omega
      · exact absurd rfl (q3 i r3 r4), trivial⟩)
    values 0 0 s1 rfl (fun hn0 => g.start hn0) trivial
  rw [e6, Res.bind_ok]

/-- Non-vacuity: seven values in ranges of 3, 1 and 3. -/
example : testFastEF FastEF.exMphf 7 3 [3, 1, 3, 2, 1, 1, 1] [50, 1, 7, 2, 1, 1, 1] = some (.ok ()) :=
  C57_test_fast_ef_sequence (by omega) (by omega) (by simp) (by simp) (by simp) (by simp) (by
    intro offs h hl
    have e : offsets 7 [3, 1, 3, 2, 1, 1, 1] 0 = some [3, 4, 7] := by decide
    rw [e] at h
    cases h
    exact absurd (by decide) hl)

namespace OwnTests

theorem runningSums_spec : ∀ (ds : List Nat) (last : Nat), (∀ d ∈ ds, d ≤ 100) →
    (runningSums last ds).length = ds.length ∧ (last :: runningSums last ds).Pairwise (· ≤ ·) ∧
      ∀ v ∈ runningSums last ds, v ≤ last + 100 * ds.length
  | [], last, _ => ⟨rfl, by simp [runningSums], by simp [runningSums]⟩
  | d :: ds, last, h => by
    have hd := h d (by simp)
    obtain ⟨h1, h2, h3⟩ := runningSums_spec ds (last + d) (fun x hx => h x (by simp [hx]))
    rw [runningSums]
    refine ⟨by simp [h1], ?_, ?_⟩
    · rw [List.pairwise_cons]
      refine ⟨fun x hx => ?_, h2⟩
      rcases List.mem_cons.1 hx with rfl | hx
      · omega
      · have := (List.pairwise_cons.1 h2).1 x hx
        omega
    · intro v hv
      rw [List.length_cons]
      rcases List.mem_cons.1 hv with rfl | hv
      · omega
      · have := h3 v hv
        omega

theorem getLoop_ok {S : Type} {get : S → Nat → Option (Nat × S)} {vals : List Nat} {P : S → Prop}
    (hget : ∀ (s : S) (i : Nat), P s → i < vals.length → ∃ s', get s i = some (vals.getD i 0, s') ∧ P s') :
    ∀ (vs : List Nat) (i : Nat) (s : S), vs = vals.drop i → P s → getLoop get vs i s = some (.ok ())
  | [], _, _, _, _ => rfl
  | v :: vs, i, s, hv, hp => by
    have hi : i < vals.length := by
      rcases Nat.lt_or_ge i vals.length with h | h
      · exact h
      · rw [List.drop_eq_nil_of_le h] at hv; cases hv
    rw [List.drop_eq_getElem_cons hi] at hv
    have hvv : v = vals.getD i 0 := by
      rw [List.getD_eq_getElem?_getD, List.getElem?_eq_getElem hi]; exact (List.cons.inj hv).1
    obtain ⟨s', e1, hp'⟩ := hget s i hp hi
    rw [getLoop, e1, Res.lift_some, Res.bind_ok, hvv, check_eq, Res.bind_ok]
    exact getLoop_ok hget vs (i + 1) s' (List.cons.inj hv).2 hp'

theorem testPefFirst_ok {junkU junkD : List W} (hu : junkU ≠ []) (hj : junkD ≠ []) {steps : List Nat} (h1 : ∀ d ∈ steps, d ≤ 100)
    (h0 : 0 < steps.length) (hn : steps.length < 2 ^ 50) : testPefFirst junkU junkD steps = some (.ok ()) := by
  obtain ⟨g1, g2, g3⟩ := runningSums_spec steps 0 h1
  have hs : Spec.Sorted (runningSums 0 steps) := (List.pairwise_cons.1 g2).2
  have hlast : (runningSums 0 steps).getLast? = some ((runningSums 0 steps).getD ((runningSums 0 steps).length - 1) 0) := by
    rw [List.getLast?_eq_getElem?, List.getD_eq_getElem?_getD, List.getElem?_eq_getElem (by omega)]; rfl
  obtain ⟨f, e1, -, hb, -⟩ := PEF.write_ok (order := 2) hs (fun v hv => by have := g3 v hv; omega) (by omega) (by omega) (fun hle => by
    have hle' : (runningSums 0 steps).length ≤ 64 := hle
    have := g3 _ (List.mem_of_getLast? hlast)
    omega)
  obtain ⟨it, e2, hit⟩ := hb.scan hu hj
  have hit' := hit _ (Nat.le_succ _)
  rw [if_neg (by omega), List.append_nil, List.take_length] at hit'
  obtain ⟨e, e3, hf⟩ := hb.init hu hj
  unfold testPefFirst
  rw [hlast, Res.lift_some, Res.bind_ok, e1, Res.bind_ok, e2, Res.lift_some, Res.bind_ok, nextLoop_ok _ _ (pef_yields _ _ hit'), Res.bind_ok, e3,
    Res.lift_some, Res.bind_ok]
  refine getLoop_ok (vals := runningSums 0 steps) (P := PEF.Good f (runningSums 0 steps) (2 ^ PEF.logPartOf 2)) ?_ _ 0 e rfl hf.good
  intro s i hs hi
  obtain ⟨r, e', q1, q2⟩ := hs.step hu hj (op := .access i) hi
  have : r = (runningSums 0 steps).getD i 0 := q2.answer
  subst this
  exact ⟨e', q1, q2.good⟩

end OwnTests

/-- C57: `test_uniform_pef_sequence` ends without aborting, whatever its generators draw (steps up to 100, lengths from 1 to
`max_range_len`, gaps from 1 to 50), if it is given more than 64 values, so that the sequence has several partitions; with up
to 64 values it ends without aborting if the first range drawn has one value or all of them (else see
`C57_test_uniform_pef_aborts_defect`). -/
theorem C57_test_uniform_pef_sequence {junkU junkD : List W} (hu : junkU ≠ []) (hj : junkD ≠ []) {n maxLen : Nat} {steps lens gaps : List Nat}
    (hm : 1 ≤ maxLen) (hn : 1 ≤ n ∧ n < 2 ^ 50) (hs : steps.length = n ∧ ∀ d ∈ steps, d ≤ 100) (h1 : ∀ r ∈ lens, 1 ≤ r ∧ r ≤ maxLen)
    (h2 : n ≤ lens.length) (h3 : ∀ d ∈ gaps, 1 ≤ d ∧ d ≤ 50) (h4 : n ≤ gaps.length)
    (h64 : n ≤ 64 → lens.head? = some 1 ∨ ∃ r, lens.head? = some r ∧ n ≤ r) :
    testPef junkU junkD n maxLen steps lens gaps = some (.ok ()) := by
  obtain ⟨offs, values, e1, e2, g⟩ := gen_ok (fun r hr => (h1 r hr).1) h2 h3 h4
  have hlen := g.length
  have hne : values ≠ [] := by
    intro hc
    rw [hc] at hlen
    simp at hlen
    omega
  have hl := (FastEF.absVals_grouped g.pointers).length
  have hlast := g.abs_le (n - 1) (by omega)
  obtain ⟨f, e3, -, hb, -⟩ := PEF.build_ok (order := 2) hne g.pointers g.increase.sorted (g.abs_lt (by omega)) (by omega) (fun hle => by
    have hle' : values.length ≤ 64 := hle
    rw [hlen]
    omega)
  obtain ⟨e, e4, hf⟩ := hb.init hu hj
  obtain ⟨it, e5, hit⟩ := hb.scan hu hj
  have hit' := hit _ (Nat.le_succ _)
  rw [if_neg (by omega), List.append_nil, List.take_length] at hit'
  unfold testPef
  rw [if_neg (by omega), testPefFirst_ok hu hj hs.2 (by omega) (by omega), Res.bind_ok]
  unfold testPefSecond
  rw [e1, Res.lift_some, Res.bind_ok, e2, Res.lift_some, Res.bind_ok, e3, Res.bind_ok, e4, Res.lift_some, Res.bind_ok, e5, Res.lift_some, Res.bind_ok]
  have hfirst : ∀ j b e, (0 :: offs)[j]? = some b → (0 :: offs)[j + 1]? = some e → b = 0 → j = 0 := by
    intro j b e r1 r2 hb0
    cases j with
    | zero => rfl
    | succ j =>
      rw [List.getElem?_cons_succ] at r1
      have := (List.pairwise_cons.1 g.strict).1 b (List.mem_of_getElem? r1)
      omega
  have hz0 : (Spec.absVals values (0 :: offs) []).getD 0 0 = 0 := by
    have := g.abs_le 0 (by omega); omega
  have hop : ∀ j b e i, (0 :: offs)[j]? = some b → (0 :: offs)[j + 1]? = some e → b ≤ i → i < e →
      PEF.Op.Ok (Spec.absVals values (0 :: offs) []) (2 ^ PEF.logPartOf 2) (.find b e (values.getD i 0)) := by
    intro j b e i r1 r2 r3 r4
    have hp := PEF.presentAt_of g.pointers g.increase r1 r2 r3 r4
    have hlt := g.abs_le i (by have := g.pointers.range_le r2; omega)
    refine ⟨by omega, hp.len, ?_, Or.inr (Or.inr (Or.inr ⟨⟨i, r3, r4, by rw [hp.val]⟩, hp.strict⟩))⟩
    have := hp.val
    have hNF : NF = 2 ^ 64 - 1 := rfl
    have := g.pointers.range_le r2
    omega
  have hacc : ∀ (s : PEnum) (j b : Nat), PEF.Good f (Spec.absVals values (0 :: offs) []) (2 ^ PEF.logPartOf 2) s → (0 :: offs)[j]? = some b → b ≠ 0 → b < n →
      ∃ s', f.get junkU junkD s b = some ((Spec.absVals values (0 :: offs) []).getD b 0, s') ∧
        PEF.Good f (Spec.absVals values (0 :: offs) []) (2 ^ PEF.logPartOf 2) s' := by
    intro s j b hg r1 r2 r3
    obtain ⟨r, e', q1, q2⟩ := hg.step hu hj (op := .access b) (show b < _ by omega)
    have : r = (Spec.absVals values (0 :: offs) []).getD b 0 := q2.answer
    subst this
    exact ⟨e', q1, q2.good⟩
  have hyield : Yields (f.next junkU junkD) it ((Spec.absVals values (0 :: offs) []).drop 0) := by
    rw [List.drop_zero]; exact pef_yields _ _ hit'
  by_cases hone : n ≤ 64 ∧ ∃ r, lens.head? = some r ∧ n ≤ r
  · -- one range: no access between the searches
    obtain ⟨hn64, r, hr, hrn⟩ := hone
    obtain ⟨ds, rfl⟩ : ∃ ds, lens = r :: ds := by
      cases lens with
      | nil => cases hr
      | cons a ds => cases hr; exact ⟨ds, rfl⟩
    have ho : offs = [n] := by
      rw [offsets, if_pos (by omega)] at e1
      have hr' : (if 0 + r > n then n else 0 + r) = n := by split <;> omega
      rw [hr'] at e1
      obtain ⟨o, q1, q2⟩ := Option.map_eq_some_iff.1 e1
      cases ds with
      | nil => rw [offsets, if_neg (by omega)] at q1; cases q1; exact q2.symm
      | cons d ds => rw [offsets, if_neg (by omega)] at q1; cases q1; exact q2.symm
    obtain ⟨s1, e6, hs1⟩ := scanLoop_ok (next := f.next junkU junkD) (get := f.get junkU junkD)
      (P := PEF.Fresh f (Spec.absVals values (0 :: offs) []) (2 ^ PEF.logPartOf 2)) g (by omega)
      (fun s j b _ hb hb0 hbn => by
        subst ho
        rcases j with _ | _ | j
        · simp at hb; omega
        · simp at hb; omega
        · simp at hb)
      values 0 0 it e rfl (fun hn0 => g.start hn0) hyield hf
    rw [e6, Res.bind_ok]
    obtain ⟨s2, e7, -⟩ := findLoop_ok (find := f.find junkU junkD) (P := PEF.Fresh f (Spec.absVals values (0 :: offs) []) (2 ^ PEF.logPartOf 2)) g
      (fun s j b e i hs r1 r2 r3 r4 => by
        obtain ⟨r, e', q1, q2⟩ := hs.good.step hu hj (hop j b e i r1 r2 r3 r4)
        have := q2.present b e _ i rfl (PEF.presentAt_of g.pointers g.increase r1 r2 r3 r4) (fun _ _ _ => hz0) (Or.inr (Or.inr hs))
        subst this
        exact ⟨e', q1, q2.fresh hs ⟨_, _, _, rfl⟩⟩)
      values 0 0 s1 rfl (fun hn0 => g.start hn0) hs1
    rw [e7, Res.bind_ok]
  · obtain ⟨s1, e6, hs1⟩ := scanLoop_ok (next := f.next junkU junkD) (get := f.get junkU junkD)
      (P := PEF.Good f (Spec.absVals values (0 :: offs) []) (2 ^ PEF.logPartOf 2)) g (by omega) hacc
      values 0 0 it e rfl (fun hn0 => g.start hn0) hyield hf.good
    rw [e6, Res.bind_ok]
    obtain ⟨s2, e7, -⟩ := findLoop_ok (find := f.find junkU junkD) (P := PEF.Good f (Spec.absVals values (0 :: offs) []) (2 ^ PEF.logPartOf 2)) g
      (fun s j b e i hs r1 r2 r3 r4 => by
        obtain ⟨r, e', q1, q2⟩ := hs.step hu hj (hop j b e i r1 r2 r3 r4)
        have hr : r = i := by
          by_cases hc : 64 < n ∨ b ≠ 0
          · exact q2.present b e _ i rfl (PEF.presentAt_of g.pointers g.increase r1 r2 r3 r4) (fun _ _ _ => hz0)
              (hc.elim (fun h => Or.inl (by rw [hl, hlen]; exact h)) (fun h => Or.inr (Or.inl h)))
          · have hb0 : b = 0 := by omega
            have hj0 := hfirst j b e r1 r2 hb0
            subst hj0
            have h1' : lens.head? = some 1 := (h64 (by omega)).elim id (fun h => absurd ⟨by omega, h⟩ hone)
            obtain ⟨ds, rfl⟩ : ∃ ds, lens = 1 :: ds := by
              cases lens with
              | nil => cases h1'
              | cons a ds => cases h1'; exact ⟨ds, rfl⟩
            have he : e = 1 := by
              rw [offsets, if_pos (by omega)] at e1
              obtain ⟨o, -, o2⟩ := Option.map_eq_some_iff.1 e1
              rw [← o2] at r2
              simp only [List.getElem?_cons_succ, List.getElem?_cons_zero, Option.some.injEq] at r2
              rw [← r2]
              split <;> omega
            have hi0 : i = 0 := by omega
            subst hi0
            have hv0 := g.zero 0 b e r1 r2
            rw [hb0] at hv0
            have ha := q2.answer
            simp only [PEF.Op.Answer] at ha
            rw [if_neg (by omega), if_pos hv0] at ha
            omega
        subst hr
        exact ⟨e', q1, q2.good⟩)
      values 0 0 s1 rfl (fun hn0 => g.start hn0) hs1
    rw [e7, Res.bind_ok]

/-- Non-vacuity: 70 values (two partitions) in ranges of 3. -/
example : testPef [5#64] [9#64] 70 3 (List.replicate 70 100) (List.replicate 70 3) (List.replicate 70 50) = some (.ok ()) :=
  C57_test_uniform_pef_sequence (by simp) (by simp) (by omega) (by omega) ⟨by simp, fun d hd => by rw [List.eq_of_mem_replicate hd]⟩
    (fun d hd => by rw [List.eq_of_mem_replicate hd]; omega) (by simp) (fun d hd => by rw [List.eq_of_mem_replicate hd]; omega) (by simp)
    (by omega)

/-- Non-vacuity for a short sequence: ranges of 1, 2 and 1. -/
example : testPef [5#64] [9#64] 4 2 [3, 0, 7, 100] [1, 2, 1, 1] [5, 3, 9, 9] = some (.ok ()) :=
  C57_test_uniform_pef_sequence (by simp) (by simp) (by omega) (by omega) (by simp) (by simp) (by simp) (by simp) (by simp)
    (fun _ => Or.inl rfl)

/-- C57 (defect): with 64 values or fewer in two ranges, the first of two values, `test_uniform_pef_sequence` aborts: the accesses
of its scan leave the enumerator after the value searched first (cf. `C18_find_after_access_defect`). -/
theorem C57_test_uniform_pef_aborts_defect : testPef [0#64] [0#64] 4 2 [1, 0, 5, 7] [2, 2, 1, 1] [5, 3, 9, 9] = some (.error ()) := by
  decide +kernel

/-- Non-vacuity: 32-bit keys, values of seven bits. -/
example : testHash 32 2 7 [(0xdeadbeef#32, 64#64), (1#32, 5#64)] = some (.ok ()) :=
  C57_test_hash_compact_vector (by omega) (by omega) (by omega) (by omega) rfl (by simp)

/-- C57: what the test of `hash_compact_vector` cannot see: it sets the pairs in order, so it passes for 40-bit values with 32-bit
keys, although the same pairs set in another order are lost (`C09_32bit_wide_value_defect`). -/
theorem C57_test_hash_misses_defect : testHash 32 2 40 [(0x12345678#32, 7#64), (0xdeadbeef#32, 5#64)] = some (.ok ()) := by
  decide +kernel

end Tongrams
