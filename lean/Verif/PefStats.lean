import Verif.PefSave
import Verif.PefIter
import Verif.Stats

/-!
# The statistics of a trie whose sequences change their state

`print_stats` (`include/utils/stats.cpp`) on tries over `uniform_pef_sequence` grams, and over `fast_ef_sequence` grams with rank
sequences that queries change.
-/

set_option linter.unusedSectionVars false

namespace Tongrams
open Stats

/-! ## Model -/

/-- `uniform_pef_sequence` as `print_stats` uses it: `size()` and `universe()` (uniform_pef_sequence.hpp:337-347), `begin()` makes a new
iterator (uniform_pef_sequence.hpp:349-352) and `next()` (uniform_pef_sequence.hpp:299-330); the sequence with the memory after its
arrays.  The enumerator of the sequence itself is not touched. -/
def Stats.Scanner.pef : Scanner (PEF × List W × List W) where
  It := PIter
  size d := d.1.size
  univ d := some d.1.univ
  begin d := d.1.begin d.2.1 d.2.2
  next d it := d.1.next d.2.1 d.2.2 it

/-- What `print_stats` uses of a `uniform_pef_sequence`: everything but its enumerator. -/
def PefObj.scanned (o : PefObj) : PEF × List W × List W := (o.seq, o.junkU, o.junkD)

/-- What `print_stats` uses of a `sorted_array`, stats.cpp:143-293; `kg` is what it uses of the grams. -/
def StArray.view {G : GramsSt} {R : RanksSt} {D : Type} (kg : Option G.S → Option D) (a : StArray G R) : View D := ⟨a.size, kg a.grams, a.ptrs⟩

/-- `trie_count_lm::print_stats`, stats.cpp:301-375, and `size()`, trie_count_lm.hpp:285-291; `const`: the trie does not change. -/
def StCount.printStats {K F D : Type} [Add F] [Mul F] [Div F] [NatCast F] {G : GramsSt} {R : RanksSt} (S : Scanner D) (kg : Option G.S → Option D)
    (log2 : F → F) (iter : List (Nat × Nat) → List (Nat × Nat)) (s : StCount K G R) : Option (Printed F) :=
  if s.counts.length < s.order ∨ s.arrs.length < s.order then none else
  (levels S log2 iter 0 none ((s.arrs.map (StArray.view kg)).take s.order)).map fun ls =>
    ⟨s.order, (s.arrs.map (·.size)).sum % 2 ^ 64, (s.counts.take s.order).map (·.size), ls⟩

/-- `trie_prob_lm::print_stats`, stats.cpp:377-432, and `size()`, trie_prob_lm.hpp:317-323. -/
def StProb.printStats {K P F D : Type} [Add F] [Mul F] [Div F] [NatCast F] {G : GramsSt} {R : RanksSt} (S : Scanner D) (kg : Option G.S → Option D)
    (log2 : F → F) (iter : List (Nat × Nat) → List (Nat × Nat)) (s : StProb K P G R) : Option (Printed F) :=
  if s.arrs.length < s.order then none else
  (levels S log2 iter 0 none ((s.arrs.map (StArray.view kg)).take s.order)).map fun ls =>
    ⟨s.order, (s.arrs.map (·.size)).sum % 2 ^ 64, [], ls⟩

namespace PefStats

/-! ## Construction -/

section
variable {G : GramsSt} {R : RanksSt} {I : GramsImpl} {J : RanksImpl} {K : Type} [DecidableEq K] {γ : Type} {kg : Option G.S → γ}

/-- Proof helper: what is used of the grams of an order. -/
def gAt (kg : Option G.S → γ) (B : List (StArray G R)) (j : Nat) : Option γ := (B[j]?).map fun b => kg b.grams
/-- Proof helper: the pointers of an order. -/
def pAt (B : List (StArray G R)) (j : Nat) : Option (Option EF) := (B[j]?).map (·.ptrs)
/-- Proof helper: the size of an order. -/
def sAt (B : List (StArray G R)) (j : Nat) : Option Nat := (B[j]?).map (·.size)

theorem ats_of_key {B B' : List (StArray G R)} (h : B'.map (StArray.key kg fun _ => ()) = B.map (StArray.key kg fun _ => ())) (j : Nat) :
    gAt kg B' j = gAt kg B j ∧ pAt B' j = pAt B j ∧ sAt B' j = sAt B j := by
  have := congrArg (·[j]?) h
  simp only [List.getElem?_map] at this
  unfold gAt pAt sAt
  cases h1 : B'[j]? <;> cases h2 : B[j]? <;> rw [h1, h2] at this <;> simp [StArray.key] at this ⊢
  exact ⟨this.2.1, this.2.2, this.1⟩

/-- What building one order does to the arrays, ideal and stateful ones. -/
theorem level_joint (hG : ∀ ord ids ptrs, G.Implements I ord ids ptrs) (hR : ∀ ord ranks, R.Implements J ord ranks) (hk : G.Keeps kg)
    {voc : K → Option Nat} {check : Bool} {ro vocSize rankWidth k : Nat} {curr prev : List (List K)} {ranks : List Nat}
    {A A' : List SortedArray} {B : List (StArray G R)} (hk1 : 1 ≤ k) (hAB : ArrSim A B)
    (h : buildLevel I J voc check ro vocSize rankWidth k curr prev ranks A = some (.ok A')) :
    ∃ B' ptrs ids ids' s e, buildLevelSt G R voc check ro vocSize rankWidth k curr prev ranks B = some (.ok B') ∧ ArrSim A' B' ∧
      buildPointers List.dropLast curr prev = .ok ptrs ∧ curr.mapM (tokenId voc A ro) = some ids ∧
      packCV (ceilLog2 (BitVec.ofNat 64 (vocSize + 1))) ids = some ids' ∧ G.build (k + 1) ids' ptrs = some (.ok s) ∧
      (ptrs.getLast?.bind fun u => EF.build ptrs u) = some (.ok e) ∧
      gAt kg B' k = some (kg (some s)) ∧ pAt B' (k - 1) = some (some e) ∧ B'.length = B.length ∧
      (∀ j, sAt B' j = sAt B j) ∧ (∀ j, j ≠ k → gAt kg B' j = gAt kg B j) ∧ (∀ j, j ≠ k - 1 → pAt B' j = pAt B j) ∧
      (∀ j, j ≠ k → (A'[j]?).map (·.find) = (A[j]?).map (·.find)) ∧ ∀ j, j ≠ k - 1 → (A'[j]?).map (·.pair) = (A[j]?).map (·.pair) := by
  unfold buildLevel at h
  obtain ⟨ptrs, e1, h⟩ := Res.bind_ok_iff h
  obtain ⟨ids, e2, h⟩ := Res.bind_ok_iff h
  by_cases hc : check = true ∧ (ro ≠ 0 ∧ ro < k) ∧ NF ∈ ids
  · rw [if_pos hc] at h; cases h
  rw [if_neg hc] at h
  obtain ⟨ids', e3, h⟩ := Res.bind_ok_iff h
  obtain ⟨f, e4, h⟩ := Res.bind_ok_iff h
  obtain ⟨ranks', e5, h⟩ := Res.bind_ok_iff h
  obtain ⟨g, e6, h⟩ := Res.bind_ok_iff h
  obtain ⟨e, e7, h⟩ := Res.bind_ok_iff h
  have h := Res.lift_ok_iff h
  obtain ⟨a, ha, h⟩ := Option.bind_eq_some_iff.1 h
  obtain ⟨ap, hap, rfl⟩ := Option.map_eq_some_iff.1 h
  obtain ⟨B1, m1, hB1⟩ := Refines.mapM (G := G) (R := R) (A := A) (Refines.tokenId voc ro) curr ids (Res.lift_ok_iff e2) B hAB
  have hf1 := St.Keeps.mapM (kr := fun _ => ()) (St.Keeps.tokenId hk voc ro) curr B ids B1 m1
  obtain ⟨s, b4, s4⟩ := hG _ _ _ f e4
  obtain ⟨t, b6, s6⟩ := hR _ _ g e6
  obtain ⟨b, hb, sb⟩ := hB1.get ha
  obtain ⟨bp, hbp, sbp⟩ := hB1.get hap
  have hkl := (List.getElem?_eq_some_iff.1 hb).1
  have hkA := (List.getElem?_eq_some_iff.1 ha).1
  have hl1 : B1.length = B.length := by simpa using congrArg List.length hf1
  refine ⟨(B1.set k { b with grams := some s, ranks := some t }).set (k - 1) { bp with ptrs := some e }, ptrs, ids, ids', s, e, ?_, ?_,
    Option.some.inj e1, Res.lift_ok_iff e2, Res.lift_ok_iff e3, b4, e7, ?_, ?_, ?_, ?_, ?_, ?_, ?_, ?_⟩
  · unfold buildLevelSt
    rw [e1, Res.bind_ok, m1, Res.lift_some, Res.bind_ok, if_neg hc, e3, Res.bind_ok, b4, Res.bind_ok, e5, Res.bind_ok, b6, Res.bind_ok,
      e7, Res.bind_ok, hb, Option.bind_some, hbp, Option.map_some, Res.lift_some]
  · exact (hB1.set (a := { a with find := f, ranks := g }) (b := { b with grams := some s, ranks := some t }) ⟨sb.size, s4, s6, sb.pair⟩).set
      (a := { ap with pair := e.pair }) (b := { bp with ptrs := some e }) ⟨sbp.size, sbp.grams, sbp.ranks, fun _ _ h => h⟩
  · unfold gAt
    rw [List.getElem?_set_ne (by omega), List.getElem?_set_self hkl]; rfl
  · unfold pAt
    rw [List.getElem?_set_self (by rw [List.length_set]; omega)]; rfl
  · rw [List.length_set, List.length_set]; exact hl1
  · intro j
    rw [← (ats_of_key hf1 j).2.2]
    unfold sAt
    by_cases h1 : j = k - 1
    · subst h1
      rw [List.getElem?_set_self (by rw [List.length_set]; omega), hbp]; rfl
    · rw [List.getElem?_set_ne (by omega)]
      by_cases h2 : j = k
      · subst h2
        rw [List.getElem?_set_self hkl, hb]; rfl
      · rw [List.getElem?_set_ne (by omega)]
  · intro j hj
    rw [← (ats_of_key hf1 j).1]
    unfold gAt
    by_cases h1 : j = k - 1
    · subst h1
      rw [List.getElem?_set_self (by rw [List.length_set]; omega), hbp]; rfl
    · rw [List.getElem?_set_ne (by omega), List.getElem?_set_ne (by omega)]
  · intro j hj
    rw [← (ats_of_key hf1 j).2.1]
    unfold pAt
    rw [List.getElem?_set_ne (by omega)]
    by_cases h2 : j = k
    · subst h2
      rw [List.getElem?_set_self hkl, hb]; rfl
    · rw [List.getElem?_set_ne (by omega)]
  · intro j hj
    by_cases h1 : j = k - 1
    · subst h1
      rw [List.getElem?_set_self (by rw [List.length_set]; omega), hap]; rfl
    · rw [List.getElem?_set_ne (by omega), List.getElem?_set_ne (by omega)]
  · intro j hj
    rw [List.getElem?_set_ne (by omega)]
    by_cases h2 : j = k
    · subst h2
      rw [List.getElem?_set_self hkA, ha]; rfl
    · rw [List.getElem?_set_ne (by omega)]

/-- What building the orders does to the arrays. -/
theorem levels_joint (hG : ∀ ord ids ptrs, G.Implements I ord ids ptrs) (hR : ∀ ord ranks, R.Implements J ord ranks) (hk : G.Keeps kg)
    {voc : K → Option Nat} {check : Bool} {ro vs : Nat} :
    ∀ (rest : List (List (List K) × List Nat × Nat)) (k : Nat) (prev : List (List K)) (A A' : List SortedArray) (B : List (StArray G R)), 1 ≤ k →
    ArrSim A B → buildLevels I J voc check ro vs k prev rest A = some (.ok A') →
    ∃ B', buildLevelsSt G R voc check ro vs k prev rest B = some (.ok B') ∧ B'.length = B.length ∧ (∀ j, sAt B' j = sAt B j) ∧
    (∀ j, j < k ∨ k + rest.length ≤ j → gAt kg B' j = gAt kg B j) ∧
    (∀ j, j + 1 < k ∨ k + rest.length ≤ j + 1 → pAt B' j = pAt B j) ∧
    (∀ j, j < k ∨ k + rest.length ≤ j → (A'[j]?).map (·.find) = (A[j]?).map (·.find)) ∧
    (∀ j, j + 1 < k ∨ k + rest.length ≤ j + 1 → (A'[j]?).map (·.pair) = (A[j]?).map (·.pair)) ∧
    ∀ (i : Nat) (curr pv : List (List K)) (rw : List Nat × Nat), rest[i]? = some (curr, rw) → (prev :: rest.map (·.1))[i]? = some pv →
      ∃ (mid : List SortedArray) (ptrs ids ids' : List Nat) (s : G.S) (e : EF), buildPointers List.dropLast curr pv = .ok ptrs ∧
        curr.mapM (tokenId voc mid ro) = some ids ∧
        packCV (ceilLog2 (BitVec.ofNat 64 (vs + 1))) ids = some ids' ∧ G.build (k + i + 1) ids' ptrs = some (.ok s) ∧
        (ptrs.getLast?.bind fun u => EF.build ptrs u) = some (.ok e) ∧
        gAt kg B' (k + i) = some (kg (some s)) ∧ pAt B' (k + i - 1) = some (some e) ∧
        (∀ j, j < k + i → (mid[j]?).map (·.find) = (A'[j]?).map (·.find)) ∧ ∀ j, j + 1 < k + i → (mid[j]?).map (·.pair) = (A'[j]?).map (·.pair)
  | [], k, prev, A, A', B, _, _, h => by
    cases h
    exact ⟨B, rfl, rfl, fun _ => rfl, fun _ _ => rfl, fun _ _ => rfl, fun _ _ => rfl, fun _ _ => rfl, fun i _ _ _ h => by simp at h⟩
  | (curr, ranks, w) :: rest, k, prev, A, A', B, hk1, hAB, h => by
    rw [buildLevels] at h
    obtain ⟨A1, h1, h2⟩ := Res.bind_ok_iff h
    obtain ⟨B1, ptrs, ids, ids', s, e, b0, bAB, b1, b2, b3, b4, b5, b6, b7, b8, b9, b10, b11, b12, b13⟩ := level_joint hG hR hk hk1 hAB h1
    obtain ⟨B', c0, c1, c2, c3, c4, c5, c6, c7⟩ := levels_joint hG hR hk rest (k + 1) curr A1 A' B1 (by omega) bAB h2
    rw [List.length_cons]
    refine ⟨B', by rw [buildLevelsSt, b0, Res.bind_ok, c0], by omega, fun j => (c2 j).trans (b9 j), ?_, ?_, ?_, ?_, ?_⟩
    · intro j hj
      rw [c3 j (by omega), b10 j (by omega)]
    · intro j hj
      rw [c4 j (by omega), b11 j (by omega)]
    · intro j hj
      rw [c5 j (by omega), b12 j (by omega)]
    · intro j hj
      rw [c6 j (by omega), b13 j (by omega)]
    · intro i cr pv rw h1 h2
      cases i with
      | zero =>
        cases h1; cases h2
        refine ⟨A, ptrs, ids, ids', s, e, b1, b2, b3, b4, b5, ?_, ?_, ?_, ?_⟩
        · rw [Nat.add_zero, c3 _ (by omega), b6]
        · rw [Nat.add_zero, c4 _ (by omega), b7]
        · intro j hj; rw [c5 j (by omega), b12 j (by omega)]
        · intro j hj; rw [c6 j (by omega), b13 j (by omega)]
      | succ i =>
        obtain ⟨mid, p, d, d', f', e', g1, g2, g3, g4, g5, g6, g7, g8, g9⟩ := c7 i cr pv rw h1 h2
        have hki : k + 1 + i = k + (i + 1) := by omega
        rw [hki] at g4 g6 g7 g8 g9
        exact ⟨mid, p, d, d', f', e', g1, g2, g3, g4, g5, g6, g7, g8, g9⟩

end

end PefStats

namespace PefStats

section
variable {G : GramsSt} {R : RanksSt} {I : GramsImpl} {J : RanksImpl} {K : Type} [DecidableEq K] {D : Type} {kg : Option G.S → Option D}

theorem find_of_map {A A' : List SortedArray} {j b e id : Nat} (h : (A[j]?).map (·.find) = (A'[j]?).map (·.find)) :
    (A[j]?).bind (fun a => a.find b e id) = (A'[j]?).bind (fun a => a.find b e id) := by
  cases h1 : A[j]? <;> cases h2 : A'[j]? <;> rw [h1, h2] at h <;> simp at h ⊢
  rw [h]

theorem pair_of_map {A A' : List SortedArray} {j x : Nat} (h : (A[j]?).map (·.pair) = (A'[j]?).map (·.pair)) :
    (A[j]?).bind (fun a => a.pair x) = (A'[j]?).bind (fun a => a.pair x) := by
  cases h1 : A[j]? <;> cases h2 : A'[j]? <;> rw [h1, h2] at h <;> simp at h ⊢
  rw [h]

/-- Building the orders lays out the sequences. -/
theorem vlaid_of_levels (hG : ∀ ord ids ptrs, G.Implements I ord ids ptrs) (hR : ∀ ord ranks, R.Implements J ord ranks) (hk : G.Keeps kg)
    (hk0 : kg none = none) {H : D → List Nat → Prop} {U : List K} {files : List (List (List K × Nat))} {ro : Nat} (h : Spec.CountFiles U files ro)
    (hH : ∀ (k : Nat) (pv curr : List (List K)) (s : G.S), (files.map (·.map (·.1)))[k]? = some pv → (files.map (·.map (·.1)))[k + 1]? = some curr →
      G.build (k + 2) (curr.map (Spec.storedId U ((files.map (·.map (·.1))).getD ro []) ro)) (Spec.childPtrs List.dropLast curr pv) = some (.ok s) →
      ∃ d, kg (some s) = some d ∧ H d (Spec.absVals (curr.map (Spec.storedId U ((files.map (·.map (·.1))).getD ro []) ro))
        (Spec.childPtrs List.dropLast curr pv) []))
    {voc : K → Option Nat} (hvoc : ∀ w ∈ U, voc w = some (U.idxOf w)) {check : Bool}
    {rks : List (List Nat)} (hrk : rks.length + 1 = files.length) {ex : List K → Nat → Prop}
    {A A' : List SortedArray} {B : List (StArray G R)} (hAB : ArrSim A B)
    (hB : Trie.Built ex U (files.map (·.map (·.1))) ro rks A' (files.length - 1))
    {prev : List (List K)} (hprev : (files.map (·.map (·.1)))[0]? = some prev) {rest : List (List (List K) × List Nat × Nat)}
    (hrest : rest.map (·.1) = (files.map (·.map (·.1))).tail)
    (hb : buildLevels I J voc check ro U.length 1 prev rest A = some (.ok A')) (hlen : B.length = files.length)
    (hs : ∀ (k : Nat) (b : StArray G R) (l : List (List K)), B[k]? = some b → (files.map (·.map (·.1)))[k]? = some l →
      b.size = l.length ∧ b.grams = none ∧ b.ptrs = none) :
    ∃ B', buildLevelsSt G R voc check ro U.length 1 prev rest B = some (.ok B') ∧
      VLaid H U (files.map (·.map (·.1))) ro (B'.map (StArray.view kg)) := by
  obtain ⟨B', i0, i1, i2, i3, i4, -, -, i5⟩ := levels_joint (kg := kg) hG hR hk rest 1 prev A A' B (by omega) hAB hb
  refine ⟨B', i0, ?_⟩
  have hrl : rest.length + 1 = files.length := by
    have := congrArg List.length hrest
    have h0 := (List.getElem?_eq_some_iff.1 hprev).1
    rw [List.length_map] at h0
    rw [List.length_map, List.length_tail, List.length_map] at this
    omega
  have hpr : prev :: rest.map (·.1) = files.map (·.map (·.1)) := by
    rw [hrest]
    cases hf : files.map (·.map (·.1)) with
    | nil => rw [hf] at hprev; simp at hprev
    | cons x xs => rw [hf] at hprev; simp at hprev; rw [hprev]; rfl
  have hstep : ∀ (k : Nat) (pv curr : List (List K)), (files.map (·.map (·.1)))[k]? = some pv → (files.map (·.map (·.1)))[k + 1]? = some curr →
      ∃ (d : D) (e : EF), gAt kg B' (k + 1) = some (some d) ∧ pAt B' k = some (some e) ∧
        e.Holds (Spec.childPtrs List.dropLast curr pv) ∧ H d (Spec.absVals (curr.map (Spec.storedId U ((files.map (·.map (·.1))).getD ro []) ro))
          (Spec.childPtrs List.dropLast curr pv) []) := by
    intro k pv curr hp hc
    have hr1 : ∃ rw, rest[k]? = some (curr, rw) := by
      have : (rest.map (·.1))[k]? = some curr := by rw [hrest, List.getElem?_tail]; exact hc
      rw [List.getElem?_map] at this
      obtain ⟨⟨x, rw⟩, hx, rfl⟩ := Option.map_eq_some_iff.1 this
      exact ⟨rw, hx⟩
    obtain ⟨rw', hr1⟩ := hr1
    obtain ⟨mid, ptrs, ids, ids', s, e, g1, g2, g3, g4, g5, g6, g7, g8, g9⟩ := i5 k curr pv rw' hr1 (by rw [hpr]; exact hp)
    obtain ⟨q1, e0, q2, q3⟩ := ptrs_built h k pv curr hp hc
    rw [q1] at g1
    cases g1
    rw [q2] at g5
    cases g5
    have hids : ids' = curr.map (Spec.storedId U ((files.map (·.map (·.1))).getD ro []) ro) :=
      step_ids h hvoc hrk hB hc (mid := mid) (fun j b e id hj => find_of_map (g8 j (by omega))) (fun j x hj => pair_of_map (g9 j (by omega))) g2 g3
    subst hids
    rw [show 1 + k + 1 = k + 2 by omega] at g4
    obtain ⟨d, d1, d2⟩ := hH k pv curr s hp hc g4
    rw [show 1 + k = k + 1 by omega] at g6
    rw [show 1 + k - 1 = k by omega] at g7
    exact ⟨d, _, by rw [g6, d1], g7, q3, d2⟩
  refine ⟨by rw [List.length_map, i1, hlen, List.length_map], ?_⟩
  intro k l hl
  have hkl := (List.getElem?_eq_some_iff.1 hl).1
  rw [List.length_map] at hkl
  have hka : k < B.length := by omega
  have ha0 := List.getElem?_eq_getElem hka
  have ha : B'[k]? = some (B'[k]'(by omega)) := List.getElem?_eq_getElem _
  generalize B'[k]'(by omega) = b' at ha
  obtain ⟨s1, s2, s3⟩ := hs k _ l ha0 hl
  refine ⟨b'.view kg, by rw [List.getElem?_map, ha]; rfl, ?_, ?_, ?_, ?_, ?_⟩
  · have := i2 k
    unfold sAt at this
    rw [ha, ha0] at this
    rw [← s1]; exact Option.some.inj this
  · intro h0
    have := i3 k (.inl (by omega))
    unfold gAt at this
    rw [ha, ha0] at this
    have h2 : kg b'.grams = kg B[k].grams := Option.some.inj this
    rw [s2, hk0] at h2
    exact h2
  · intro pv hk hpv
    obtain ⟨d, e, f1, -, -, f2⟩ := hstep (k - 1) pv l hpv (by rw [show k - 1 + 1 = k by omega]; exact hl)
    refine ⟨d, ?_, f2⟩
    rw [show k - 1 + 1 = k by omega] at f1
    unfold gAt at f1
    rw [ha] at f1
    exact Option.some.inj f1
  · intro nx hnx
    obtain ⟨d, e, -, f1, f2, -⟩ := hstep k l nx hl hnx
    refine ⟨e, ?_, f2⟩
    unfold pAt at f1
    rw [ha] at f1
    exact Option.some.inj f1
  · intro hno p hp
    have hkl2 := List.getElem?_eq_none_iff.1 hno
    rw [List.length_map] at hkl2
    have := i4 k (.inr (by omega))
    unfold pAt at this
    rw [ha, ha0] at this
    have h2 : b'.ptrs = B[k].ptrs := Option.some.inj this
    have hp' : b'.ptrs = some p := hp
    rw [s3, hp'] at h2
    exact absurd h2 (by simp)

/-- Building a count trie lays out its sequences. -/
theorem count_vlaid (hG : ∀ ord ids ptrs, G.Implements I ord ids ptrs) (hR : ∀ ord ranks, R.Implements J ord ranks) (hk : G.Keeps kg)
    (hk0 : kg none = none) {H : D → List Nat → Prop} {L : SortLib} (hL : L.Valid) {U : List K} {files : List (List (List K × Nat))} {ro : Nat}
    (h : Spec.CountFiles U files ro)
    (hH : ∀ (k : Nat) (pv curr : List (List K)) (s : G.S), (files.map (·.map (·.1)))[k]? = some pv → (files.map (·.map (·.1)))[k + 1]? = some curr →
      G.build (k + 2) (curr.map (Spec.storedId U ((files.map (·.map (·.1))).getD ro []) ro)) (Spec.childPtrs List.dropLast curr pv) = some (.ok s) →
      ∃ d, kg (some s) = some d ∧ H d (Spec.absVals (curr.map (Spec.storedId U ((files.map (·.map (·.1))).getD ro []) ro))
        (Spec.childPtrs List.dropLast curr pv) []))
    {hv : Mphf K 64} {t : TrieCount K} (e : TrieCount.build L hv I J ro files = some (.ok t))
    {rks' : List (List Nat)} (hrl : rks'.length + 1 = files.length) {ex : List K → Nat → Prop}
    (hB : Trie.Built ex U (files.map (·.map (·.1))) ro rks' t.arrs (files.length - 1))
    (hvoc : ∀ w ∈ U, t.voc w = some (U.idxOf w)) :
    ∃ t', StCount.build L hv G R ro files = some (.ok t') ∧ t'.order = files.length ∧
      t'.counts.map (·.size) = files.map (fun f => (f.map (·.2)).dedup.length) ∧
      VLaid H U (files.map (·.map (·.1))) ro (t'.arrs.map (StArray.view kg)) := by
  have hlen := fun f hf => TrieCount.len_of_size (f := f) h hf
  have hmin := h.order_min
  unfold TrieCount.build at e
  by_cases hcd : files.length < 2 ∨ maxOrder < files.length ∨ 2 < ro
  · rw [if_pos hcd] at e; cases e
  rw [if_neg hcd] at e
  obtain ⟨colls, e1, e⟩ := Res.bind_ok_iff e
  obtain ⟨rks, e2, e⟩ := Res.bind_ok_iff e
  obtain ⟨r0, e3, e⟩ := Res.bind_ok_iff e
  obtain ⟨g0, e4, e⟩ := Res.bind_ok_iff e
  obtain ⟨tb, e5, e⟩ := Res.bind_ok_iff e
  obtain ⟨f0, e6, e⟩ := Res.bind_ok_iff e
  obtain ⟨arrs, e7, e⟩ := Res.bind_ok_iff e
  cases e
  obtain ⟨t0, b4, s4⟩ := hR _ _ g0 e4
  have hf0 : files[0]? = some f0 := by rw [← List.head?_eq_getElem?]; exact Res.lift_ok_iff e6
  have lc := Res.mapM_length e1
  have lr := Res.mapM_length e2
  rw [List.length_zip, lc, Nat.min_self] at lr
  have hU0 := h.data.unigrams
  rw [List.getElem?_map, hf0] at hU0
  have hU1 : f0.map (·.1) = U.map fun w => [w] := Option.some.inj hU0
  have hfl : f0.length = U.length := by simpa using congrArg List.length hU1
  rw [hfl] at e7
  have h0 : ArrSim ((files.map fun f => SortedArray.new f.length).modifyHead fun a => { a with ranks := g0 })
        ((files.map fun f => (StArray.new f.length : StArray G R)).modifyHead fun a => { a with ranks := some t0 }) := by
    refine ⟨by simp, ?_⟩
    intro i a b ha hb
    rw [List.getElem?_modifyHead, List.getElem?_map] at ha hb
    cases hf : files[i]? with
    | none => rw [hf] at ha; split at ha <;> cases ha
    | some f =>
      rw [hf] at ha hb
      have hn : (StArray.new f.length : StArray G R).Sim (SortedArray.new f.length) := StArray.new_sim _
      split at ha
      · rename_i hi
        rw [if_pos hi] at hb
        cases ha; cases hb
        exact ⟨hn.size, hn.grams, s4, hn.pair⟩
      · rename_i hi
        rw [if_neg hi] at hb
        cases ha; cases hb
        exact hn
  obtain ⟨B', b7, hV⟩ := vlaid_of_levels (kg := kg) hG hR hk hk0 h hH hvoc hrl h0 hB (by rw [List.getElem?_map, hf0]; rfl) (by
      refine Eq.trans (List.map_fst_zip (by simp; omega)) ?_
      rw [List.map_tail]) e7 (by simp) (by
      intro k b l hb hl
      rw [List.getElem?_map] at hl
      obtain ⟨f, hf, rfl⟩ := Option.map_eq_some_iff.1 hl
      rw [List.getElem?_modifyHead, List.getElem?_map, hf] at hb
      split at hb <;> cases hb <;> exact ⟨(List.length_map _).symm, rfl, rfl⟩)
  refine ⟨{ order := files.length, ro := ro, voc := tb, arrs := B', counts := colls.map (·.1) }, ?_, rfl, ?_, hV⟩
  · unfold StCount.build
    rw [if_neg hcd, e1, Res.bind_ok, e2, Res.bind_ok, e3, Res.bind_ok, b4, Res.bind_ok, e5, Res.bind_ok, e6, Res.bind_ok, hfl, b7, Res.bind_ok]
  · show (colls.map (·.1)).map (·.size) = _
    apply List.ext_getElem?
    intro i
    rw [List.map_map, List.getElem?_map, List.getElem?_map]
    cases hx : colls[i]? with
    | none =>
      have := List.getElem?_eq_none_iff.1 hx
      rw [List.getElem?_eq_none (by omega)]; rfl
    | some x =>
      obtain ⟨f, hf, e⟩ := Res.mapM_get? e1 i x hx
      have hfm := List.mem_of_getElem? hf
      obtain ⟨cv, pairs, q1, q2, -⟩ := C20_access_inverts_rank hL (vals := f.map (·.2)) (by
        intro v hv
        obtain ⟨r, hr, rfl⟩ := List.mem_map.1 hv
        exact h.counts f hfm r hr) (by rw [List.length_map]; have := hlen f hfm; omega)
      have e' := Res.lift_ok_iff e
      rw [q1] at e'
      cases e'
      rw [hf]
      exact congrArg some q2

/-- Building a backoff trie lays out its sequences. -/
theorem prob_vlaid {P : Type} [FloatArith P] (hG : ∀ ord ids ptrs, G.Implements I ord ids ptrs) (hR : ∀ ord ranks, R.Implements J ord ranks) (hk : G.Keeps kg)
    (hk0 : kg none = none) {H : D → List Nat → Prop} {U : List K} {data : List (List (List K × P × P))} {ro pb bb : Nat}
    (h : Spec.ProbFiles U data ro)
    (hH : ∀ (k : Nat) (pv curr : List (List K)) (s : G.S), (data.map (·.map (·.1.reverse)))[k]? = some pv →
      (data.map (·.map (·.1.reverse)))[k + 1]? = some curr →
      G.build (k + 2) (curr.map (Spec.storedId U ((data.map (·.map (·.1.reverse))).getD ro []) ro)) (Spec.childPtrs List.dropLast curr pv) = some (.ok s) →
      ∃ d, kg (some s) = some d ∧ H d (Spec.absVals (curr.map (Spec.storedId U ((data.map (·.map (·.1.reverse))).getD ro []) ro))
        (Spec.childPtrs List.dropLast curr pv) []))
    (fb : FloatBits P) {sort : List P → List P} {negInf : P} {unkWord : K} {default unk : P}
    {hv : Mphf K 64} {t : TrieProb K P} (e : TrieProb.build fb sort negInf unkWord default hv I J ro unk pb bb data = some (.ok t))
    {rks' : List (List Nat)} (hrl : rks'.length + 1 = data.length) {ex : List K → Nat → Prop}
    (hB : Trie.Built ex U (data.map (·.map (·.1.reverse))) ro rks' t.arrs (data.length - 1))
    (hvoc : ∀ w ∈ U, (t.voc.lookupPair w).map (fun p => p.1.toNat) = some (U.idxOf w)) :
    ∃ t', StProb.build fb sort negInf unkWord default hv G R ro unk pb bb data = some (.ok t') ∧ t'.order = data.length ∧
      VLaid H U (data.map (·.map (·.1.reverse))) ro (t'.arrs.map (StArray.view kg)) := by
  have hcf := TrieProb.asCounts_ok h
  have hlev := TrieProb.asCounts_map data
  have hla : (TrieProb.asCounts data).length = data.length := List.length_map _
  have hmin := h.arpa.order_min
  unfold TrieProb.build at e
  by_cases hcd : data.length < 2 ∨ maxOrder < data.length ∨ 2 < ro
  · rw [if_pos hcd] at e; cases e
  rw [if_neg hcd] at e
  obtain ⟨⟨ps, bs⟩, e1, e⟩ := Res.bind_ok_iff e
  obtain ⟨f0, e2, e⟩ := Res.bind_ok_iff e
  obtain ⟨tb, e3, e⟩ := Res.bind_ok_iff e
  obtain ⟨rks, e4, e⟩ := Res.bind_ok_iff e
  obtain ⟨arrs, e5, e⟩ := Res.bind_ok_iff e
  cases e
  have hf0 : data[0]? = some f0 := by rw [← List.head?_eq_getElem?]; exact Res.lift_ok_iff e2
  obtain ⟨r1, -⟩ := TrieProb.rankLevels_sizes _ _ _ (Res.lift_ok_iff e4)
  rw [List.length_tail] at r1
  have hU0 := h.trie.unigrams
  rw [List.getElem?_map, hf0] at hU0
  have hU1 : f0.map (·.1.reverse) = U.map fun w => [w] := Option.some.inj hU0
  have hfl : f0.length = U.length := by simpa using congrArg List.length hU1
  rw [hfl] at e5
  have h0 : ArrSim (data.map fun f => SortedArray.new f.length) (data.map fun f => (StArray.new f.length : StArray G R)) := by
    refine ⟨by simp, ?_⟩
    intro i a b ha hb
    rw [List.getElem?_map] at ha hb
    cases hf : data[i]? with
    | none => rw [hf] at ha; cases ha
    | some f =>
      rw [hf] at ha hb
      cases ha; cases hb
      exact StArray.new_sim _
  rw [← hlev] at hH hB ⊢
  obtain ⟨B', b5, hV⟩ := vlaid_of_levels (kg := kg) hG hR hk hk0 hcf hH hvoc (by rw [hla]; exact hrl) h0 (by rw [hla]; exact hB)
    (by rw [hlev, List.getElem?_map, hf0]; rfl) (by
      refine Eq.trans (List.map_fst_zip (by simp; omega)) ?_
      rw [hlev, List.map_tail]) e5 (by rw [hla, List.length_map]) (by
      intro k b l hb hl
      rw [hlev, List.getElem?_map] at hl
      obtain ⟨f, hf, rfl⟩ := Option.map_eq_some_iff.1 hl
      rw [List.getElem?_map, hf] at hb
      cases hb
      exact ⟨(List.length_map _).symm, rfl, rfl⟩)
  refine ⟨{ order := data.length, ro := ro, unk := findUnk unkWord default f0 unk, voc := tb, arrs := B', ps := ps, bs := bs, pb := pb }, ?_, rfl, hV⟩
  unfold StProb.build
  rw [if_neg hcd, e1, Res.bind_ok, e2, Res.bind_ok, e3, Res.bind_ok, e4, Res.bind_ok, hfl, b5, Res.bind_ok]

end

/-! ## Queries and files -/

section
variable {G G' : GramsSt} {R R' : RanksSt} {K : Type} [DecidableEq K] {D D' : Type}

/-- Queries do not change what is used. -/
theorem view_of_key {kg : Option G.S → Option D} {B B' : List (StArray G R)}
    (h : B'.map (StArray.key kg fun _ => ()) = B.map (StArray.key kg fun _ => ())) : B'.map (StArray.view kg) = B.map (StArray.view kg) := by
  have := congrArg (List.map fun x : Nat × Option D × Unit × Option EF => (⟨x.1, x.2.1, x.2.2.2⟩ : View D)) h
  rw [List.map_map, List.map_map] at this
  exact this

/-- The sequences of a loaded trie. -/
theorem vlaid_loaded {kg : Option G.S → Option D} {kg' : Option G'.S → Option D'} {F : GramsFile G} {F' : GramsFile G'} {jp : EF} (hjp : jp.size = 0)
    (hk0 : kg' none = none) {H : D → List Nat → Prop} {H' : D' → List Nat → Prop}
    (hload : ∀ (i : Nat) (d : D) (vals : List Nat) (o : Option G.S) (o' : Option G'.S), kg o = some d → H d vals →
      Spec.Reads (F'.load i) (F.save o) o' → ∃ d', kg' o' = some d' ∧ H' d' vals)
    {U : List K} {lv : List (List (List K))} {ro : Nat} {B : List (StArray G R)} {B' : List (StArray G' R')}
    (h : VLaid H U lv ro (B.map (StArray.view kg))) {Fr : RanksFile R} {Fr' : RanksFile R'} {fr : Bool} (hl : ArrLoaded F F' Fr Fr' jp fr 0 B B') : VLaid H' U lv ro (B'.map (StArray.view kg')) := by
  have hlen := h.len
  refine ⟨by rw [List.length_map, hl.1, ← hlen, List.length_map], ?_⟩
  intro k l hkl
  obtain ⟨a, a1, a2, a3, a4, a5, a6⟩ := h.array k l hkl
  rw [List.getElem?_map] at a1
  obtain ⟨b, hb, rfl⟩ := Option.map_eq_some_iff.1 a1
  have hk := (List.getElem?_eq_some_iff.1 hb).1
  have hb' : B'[k]? = some (B'[k]'(by rw [hl.1]; exact hk)) := List.getElem?_eq_getElem _
  generalize B'[k]'(by rw [hl.1]; exact hk) = b' at hb'
  have hL := hl.2 k b b' hb hb'
  rw [Nat.zero_add] at hL
  refine ⟨b'.view kg', by rw [List.getElem?_map, hb']; rfl, hL.size.trans a2, ?_, ?_, ?_, ?_⟩
  · intro h0
    show kg' b'.grams = none
    rw [hL.first h0, hk0]
  · intro pv h1 hpv
    obtain ⟨g, g1, g2⟩ := a4 pv h1 hpv
    exact hload (k + 1) g _ b.grams b'.grams g1 g2 (hL.grams (by omega))
  · intro nx hnx
    obtain ⟨e, e1, e2⟩ := a5 nx hnx
    refine ⟨e, ?_, e2⟩
    show b'.ptrs = _
    have e1' : b.ptrs = some e := e1
    rw [hL.ptrs, e1']; rfl
  · intro hno p hp
    have hp' : b'.ptrs = some p := hp
    rw [hL.ptrs] at hp'
    cases hp'
    cases ha : b.ptrs with
    | none => exact hjp
    | some p => exact a6 hno p ha

variable {F : Type} [Add F] [Mul F] [Div F] [NatCast F]

theorem VLaid.mono {H H' : D → List Nat → Prop} (hH : ∀ d vals, H d vals → H' d vals) {U : List K} {lv : List (List (List K))} {ro : Nat}
    {vs : List (View D)} (h : VLaid H U lv ro vs) : VLaid H' U lv ro vs where
  len := h.len
  array k l hl := by
    obtain ⟨a, a1, a2, a3, a4, a5, a6⟩ := h.array k l hl
    refine ⟨a, a1, a2, a3, fun pv h1 h2 => ?_, a5, a6⟩
    obtain ⟨g, g1, g2⟩ := a4 pv h1 h2
    exact ⟨g, g1, hH _ _ g2⟩

/-- What is printed for a trie whose sequences are laid out. -/
theorem count_printed {S : Scanner D} {kg : Option G.S → Option D} {U : List K} {files : List (List (List K × Nat))} {ro : Nat}
    (h : Spec.CountFiles U files ro) (log2 : F → F) {iter : List (Nat × Nat) → List (Nat × Nat)} (hiter : ∀ m, (iter m).Perm m)
    {t : StCount K G R} (e2 : t.order = files.length) (e3 : t.counts.map (·.size) = files.map (fun f => (f.map (·.2)).dedup.length))
    (e4 : VLaid S.Holds U (files.map (·.map (·.1))) ro (t.arrs.map (StArray.view kg))) :
    ∃ x : Printed F, t.printStats S kg log2 iter = some x ∧
      Spec.TrieNumbers log2 U (files.map (·.map (·.1))) ro (files.map fun f => (f.map (·.2)).dedup.length) x := by
  have hal := e4.len
  rw [List.length_map, List.length_map] at hal
  have hcl : t.counts.length = files.length := by simpa using congrArg List.length e3
  obtain ⟨ls, l1, l2⟩ := laid_numbers h e4 log2 hiter (files.map fun f => (f.map (·.2)).dedup.length)
  rw [List.map_map] at l2
  refine ⟨_, ?_, l2⟩
  unfold StCount.printStats
  rw [if_neg (by omega), e2, l1, List.take_of_length_le (by omega : t.counts.length ≤ files.length), e3]
  rfl

theorem prob_printed {P : Type} [FloatArith P] {S : Scanner D} {kg : Option G.S → Option D} {U : List K} {data : List (List (List K × P × P))} {ro : Nat}
    (h : Spec.ProbFiles U data ro) (log2 : F → F) {iter : List (Nat × Nat) → List (Nat × Nat)} (hiter : ∀ m, (iter m).Perm m)
    {t : StProb K P G R} (e2 : t.order = data.length)
    (e4 : VLaid S.Holds U (data.map (·.map (·.1.reverse))) ro (t.arrs.map (StArray.view kg))) :
    ∃ x : Printed F, t.printStats S kg log2 iter = some x ∧ Spec.TrieNumbers log2 U (data.map (·.map (·.1.reverse))) ro [] x := by
  have hcf := TrieProb.asCounts_ok h
  have hlev := TrieProb.asCounts_map data
  have hla : (TrieProb.asCounts data).length = data.length := List.length_map _
  have hal := e4.len
  rw [List.length_map, List.length_map] at hal
  obtain ⟨ls, l1, l2⟩ := laid_numbers hcf (by rw [hlev]; exact e4) log2 hiter []
  rw [hlev, hla, List.map_map] at l2
  rw [hla] at l1
  refine ⟨_, ?_, l2⟩
  unfold StProb.printStats
  rw [if_neg (by omega), e2, l1]
  rfl

end

/-! ## The sequences -/

/-- A built `uniform_pef_sequence` that holds the values. -/
def PefH (d : PEF × List W × List W) (vals : List Nat) : Prop :=
  (d.1.Fits ∧ d.1.size = vals.length ∧ vals ≠ [] ∧ d.1.univ = vals.getD (vals.length - 1) 0 ∧ (∀ v ∈ vals, v < 2 ^ 64) ∧ ∃ ps, PEF.Built d.1 vals ps) ∧
    d.2.1 ≠ [] ∧ d.2.2 ≠ []

theorem takeNext_step {f : PEF} {ju jd : List W} {vals : List Nat} {i : Nat} {it : PIter} (hi : i < vals.length)
    (h : ∀ k, i + k ≤ vals.length → f.takeNext ju jd k it = some ((vals.drop i).take k)) :
    ∃ it', f.next ju jd it = some (vals.getD i 0, it') ∧
      ∀ k, i + 1 + k ≤ vals.length → f.takeNext ju jd k it' = some ((vals.drop (i + 1)).take k) := by
  have h1 := h 1 (by omega)
  have hd : vals.drop i = vals.getD i 0 :: vals.drop (i + 1) := by
    rw [List.drop_eq_getElem_cons hi, List.getD_eq_getElem?_getD, List.getElem?_eq_getElem hi]; rfl
  rw [hd, PEF.takeNext] at h1
  obtain ⟨⟨v, it'⟩, e1, e2⟩ := Option.bind_eq_some_iff.1 h1
  have hv : v = vals.getD i 0 := by simpa [PEF.takeNext] using e2
  subst hv
  refine ⟨it', e1, ?_⟩
  intro k hk
  have h2 := h (k + 1) (by omega)
  rw [hd, PEF.takeNext, e1, Option.bind_some, List.take_succ_cons] at h2
  obtain ⟨l, e3, e4⟩ := Option.map_eq_some_iff.1 h2
  rw [e3, (List.cons.inj e4).2]

theorem PefH.holds {d : PEF × List W × List W} {vals : List Nat} (h : PefH d vals) : Scanner.pef.Holds d vals := by
  obtain ⟨⟨h1, h2, h3, h4, h5, ps, h6⟩, h7, h8⟩ := h
  refine ⟨h2, fun _ => congrArg some h4, h5, fun _ => ?_⟩
  obtain ⟨it, e1, e2⟩ := h6.scan h7 h8
  refine ⟨fun i it => ∀ k, i + k ≤ vals.length → d.1.takeNext d.2.1 d.2.2 k it = some ((vals.drop i).take k), ⟨it, e1, ?_⟩, ?_⟩
  · intro k hk
    rw [e2 k (by omega), if_neg (by omega), List.append_nil, List.drop_zero]
  · intro i it hi hl
    exact takeNext_step hl hi

theorem pef_keeps (junkU junkD : Nat → List W) : (GramsSt.pef junkU junkD).Keeps (Option.map PefObj.scanned) := by
  intro s b e id r s' h
  obtain ⟨⟨v, en⟩, -, h⟩ := Option.map_eq_some_iff.1 h
  cases h
  rfl

/-- What is built for an order. -/
theorem pef_built {junkU junkD : Nat → List W} (hu : ∀ k, junkU k ≠ []) (hj : ∀ k, junkD k ≠ []) {ord : Nat} {ids ptrs : List Nat} {s : PefObj}
    (h : PefTrie.GramsOk ord ids ptrs) (hs : (GramsSt.pef junkU junkD).build ord ids ptrs = some (.ok s)) :
    ∃ d, Option.map PefObj.scanned (some s) = some d ∧ PefH d (Spec.absVals ids ptrs []) := by
  obtain ⟨f, f1, f2, f3, f4⟩ := PEF.build_ok (order := ord) h.ne h.pointers h.strict.sorted h.bound h.len h.span
  have hlen := (FastEF.absVals_grouped h.pointers).length
  obtain ⟨e, e1, -⟩ := f3.init (hu ord) (hj ord)
  have hpos := List.length_pos_iff.2 h.ne
  have hs' : Res.bind (PEF.build ids ptrs ord) (fun f => Res.lift (PefObj.ofSeq (junkU ord) (junkD ord) f)) = some (.ok s) := hs
  rw [f1, Res.bind_ok, PefObj.ofSeq, e1] at hs'
  cases hs'
  refine ⟨_, rfl, ⟨PEF.fits_of_sized (by rw [hlen]; exact f2) f4 h.bound (by rw [hlen]; exact h.len), by rw [hlen]; exact f2, ?_, f4.1, ?_, _, f3⟩, hu ord, hj ord⟩
  · intro e0; rw [e0] at hlen; simp at hlen; omega
  · intro v hv; have := h.bound v hv; omega

theorem pef_loaded {junkU junkD junkU' junkD' : Nat → List W} (hu' : ∀ k, junkU' k ≠ []) (hj' : ∀ k, junkD' k ≠ []) (i : Nat)
    (d : PEF × List W × List W) (vals : List Nat) (o o' : Option PefObj) (hd : Option.map PefObj.scanned o = some d) (h : PefH d vals)
    (hr : Spec.Reads ((GramsFile.pef junkU' junkD').load i) ((GramsFile.pef junkU junkD).save o) o') :
    ∃ d', Option.map PefObj.scanned o' = some d' ∧ PefH d' vals := by
  obtain ⟨s, rfl, rfl⟩ := Option.map_eq_some_iff.1 hd
  obtain ⟨⟨h1, h2, h3, h4, h5, ps, h6⟩, h7, h8⟩ := h
  obtain ⟨e', e1', -⟩ := h6.init (hu' i) (hj' i)
  have hpos := List.length_pos_iff.2 h3
  have := PefObj.load_save (junkU := junkU' i) (junkD := junkD' i) h1 (by omega) e1'
  have hr' : Spec.Reads (PefObj.load (junkU' i) (junkD' i)) s.seq.save o' := hr
  have e := (this []).symm.trans (hr' [])
  simp only [Option.some.injEq, Prod.mk.injEq] at e
  obtain ⟨rfl, -⟩ := e
  exact ⟨_, rfl, ⟨h1, h2, h3, h4, h5, ps, h6⟩, hu' i, hj' i⟩

/-- What is built for the orders of a `uniform_pef_sequence` trie. -/
theorem pef_level {K : Type} [DecidableEq K] {U : List K} {files : List (List (List K × Nat))} {ro : Nat} (h : Spec.CountFiles U files ro)
    (hp : Spec.PefFiles U files ro) {junkU junkD : Nat → List W} (hu : ∀ k, junkU k ≠ []) (hj : ∀ k, junkD k ≠ []) (k : Nat)
    (pv curr : List (List K)) (s : PefObj) (hpv : (files.map (·.map (·.1)))[k]? = some pv) (hc : (files.map (·.map (·.1)))[k + 1]? = some curr)
    (e : (GramsSt.pef junkU junkD).build (k + 2) (curr.map (Spec.storedId U ((files.map (·.map (·.1))).getD ro []) ro))
      (Spec.childPtrs List.dropLast curr pv) = some (.ok s)) :
    ∃ d, Option.map PefObj.scanned (some s) = some d ∧ PefH d (Spec.absVals (curr.map (Spec.storedId U ((files.map (·.map (·.1))).getD ro []) ro))
      (Spec.childPtrs List.dropLast curr pv) []) := by
  obtain ⟨g, g1, -⟩ := PefTrie.grams_exact h hp k pv curr hpv hc
  refine pef_built hu hj ?_ e
  unfold PefTrie.ideal at g1
  simp only at g1
  split at g1
  · assumption
  · cases g1

theorem _root_.Tongrams.GramsFile.Stores.implements {G G' : GramsSt} {F : GramsFile G} {F' : GramsFile G'} {I : GramsImpl} (h : F.Stores F' I)
    (ord : Nat) (ids ptrs : List Nat) : G.Implements I ord ids ptrs := by
  intro f e
  obtain ⟨s, h1, h2, -⟩ := h.build ord ids ptrs f e
  exact ⟨s, h1, h2⟩

theorem _root_.Tongrams.RanksFile.Stores.implements {R R' : RanksSt} {F : RanksFile R} {F' : RanksFile R'} {J : RanksImpl} (h : F.Stores F' J)
    (ord : Nat) (ranks : List Nat) : R.Implements J ord ranks := by
  intro f e
  obtain ⟨s, h1, h2, -⟩ := h.build ord ranks f e
  exact ⟨s, h1, h2⟩

/-- A queried trie has the sequences of the trie. -/
theorem count_queried {G : GramsSt} {R : RanksSt} {K D : Type} [DecidableEq K] {kg : Option G.S → Option D} (hk : G.Keeps kg) {H : D → List Nat → Prop}
    {U : List K} {lv : List (List (List K))} {ro : Nat} {t t1 : StCount K G R} {qs : List (List K)} {vs : List Nat}
    (e : t.lookups qs = some (vs, t1)) (h : VLaid H U lv ro (t.arrs.map (StArray.view kg))) :
    t1.order = t.order ∧ t1.counts = t.counts ∧ VLaid H U lv ro (t1.arrs.map (StArray.view kg)) := by
  obtain ⟨k1, k2⟩ := StCount.lookups_key hk (kr := fun _ => ()) (fun _ _ _ _ _ => rfl) e
  rw [view_of_key k1]
  exact ⟨by rw [k2], by rw [k2], h⟩

end PefStats

open Stats PefStats in
/-- **C53** for count tries over `uniform_pef_sequence` grams: at any moment of their life — just built, after any queries that C49 covers, loaded from
the file that `save` wrote, and queried again — `print_stats` prints the numbers that the files determine.  The state of the searches, that
queries change, is not printed and does not disturb the iterators. -/
theorem C53_pef_count_trie {K F : Type} [DecidableEq K] [Add F] [Mul F] [Div F] [NatCast F] (log2 : F → F)
    {iter : List (Nat × Nat) → List (Nat × Nat)} (hiter : ∀ m, (iter m).Perm m) {L : SortLib} (hL : L.Valid) {U : List K}
    {files : List (List (List K × Nat))} {ro : Nat} (h : Spec.CountFiles U files ro) (hp : Spec.PefFiles U files ro)
    {hv : Mphf K 64} (hb : hv.BuiltFrom U) {c : Emphf K 64} (hc : Spec.EmphfReads c hv)
    {junkU junkD junkU' junkD' : Nat → List W} (hu : ∀ k, junkU k ≠ []) (hj : ∀ k, junkD k ≠ []) (hu' : ∀ k, junkU' k ≠ []) (hj' : ∀ k, junkD' k ≠ [])
    (pr : PefRanks) (hpr : ∀ f ∈ files, f.length < pr.maxLines) {ji : ICSeq} {je jp : EF} (hji : ji.Fits) (hje : je.Fits) (hjp : jp.Fits)
    (hjp0 : jp.size = 0) (header : Byte) :
    ∃ t, StCount.build L hv (GramsSt.pef junkU junkD) (pr.stored junkU junkD) ro files = some (.ok t) ∧
      (∃ x : Printed F, t.printStats Scanner.pef (Option.map PefObj.scanned) log2 iter = some x ∧
        Spec.TrieNumbers log2 U (files.map (·.map (·.1))) ro (files.map fun f => (f.map (·.2)).dedup.length) x) ∧
      ∀ before : List (List K × Nat), (∀ p ∈ before, (∃ f ∈ files, p ∈ f) ∨ (p.2 = NF ∧ Spec.PefAbsent hv U files ro p.1)) →
        ∃ t1, t.lookups (before.map (·.1)) = some (before.map (·.2), t1) ∧
          (∃ x : Printed F, t1.printStats Scanner.pef (Option.map PefObj.scanned) log2 iter = some x ∧
            Spec.TrieNumbers log2 U (files.map (·.map (·.1))) ro (files.map fun f => (f.map (·.2)).dedup.length) x) ∧
          ∃ t2, loadFile (StCount.load (GramsFile.pef junkU' junkD') (pr.file junkU' junkD' ji je) c)
              (saveFile header (t1.save (GramsFile.pef junkU junkD) (pr.file junkU junkD ji je) jp c)) =
              some (t2, (saveFile header (t1.save (GramsFile.pef junkU junkD) (pr.file junkU junkD ji je) jp c)).length) ∧
            (∃ x : Printed F, t2.printStats Scanner.pef (Option.map PefObj.scanned) log2 iter = some x ∧
              Spec.TrieNumbers log2 U (files.map (·.map (·.1))) ro (files.map fun f => (f.map (·.2)).dedup.length) x) ∧
            ∀ after : List (List K × Nat), (∀ p ∈ after, (∃ f ∈ files, p ∈ f) ∨ (p.2 = NF ∧ Spec.PefAbsent hv U files ro p.1)) →
              ∃ t3, t2.lookups (after.map (·.1)) = some (after.map (·.2), t3) ∧
                ∃ x : Printed F, t3.printStats Scanner.pef (Option.map PefObj.scanned) log2 iter = some x ∧
                  Spec.TrieNumbers log2 U (files.map (·.map (·.1))) ro (files.map fun f => (f.map (·.2)).dedup.length) x := by
  have hsz : ∀ f ∈ files, f.length < 2 ^ 57 := fun f hf => by have := TrieCount.len_of_size h hf; omega
  obtain ⟨t, e, hg⟩ := TrieCount.build_ok hL (ex := PefTrie.ClearAt U (files.map (·.map (·.1))) ro) h.data h.order_min h.order_max h.remapping
    h.counts hsz hb (PefTrie.grams_exact h hp) (PefRanks.exact h pr hpr)
  have hG := GramsFile.pef_stores hu hj hu' hj'
  have hR := pr.stores hu hj hu' hj' hji hje
  obtain ⟨t', e', hs, hf⟩ := StCount.build_filed hG hR hjp hL h hb hc e
  obtain ⟨rks, hrl, hB⟩ := hg.built
  obtain ⟨t'', e'', o1, o2, o3⟩ := count_vlaid (G := GramsSt.pef junkU junkD) (kg := (Option.map PefObj.scanned : Option PefObj → _)) (R := pr.stored junkU junkD) hG.implements
    hR.implements (pef_keeps junkU junkD) rfl (H := PefH) hL h (pef_level h hp hu hj) e hrl hB hg.voc
  rw [e'] at e''
  cases e''
  have hprint : ∀ {junkU junkD : Nat → List W} {R : RanksSt} {s : StCount K (GramsSt.pef junkU junkD) R}, s.order = t'.order → s.counts = t'.counts →
      VLaid PefH U (files.map (·.map (·.1))) ro (s.arrs.map (StArray.view (Option.map PefObj.scanned))) →
      ∃ x : Printed F, s.printStats Scanner.pef (Option.map PefObj.scanned) log2 iter = some x ∧
        Spec.TrieNumbers log2 U (files.map (·.map (·.1))) ro (files.map fun f => (f.map (·.2)).dedup.length) x := fun h1 h2 h3 =>
    count_printed h log2 hiter (h1.trans o1) (by rw [h2]; exact o2) (PefStats.VLaid.mono (fun _ _ => PefH.holds) h3)
  refine ⟨t', e', hprint rfl rfl o3, fun before hm => ?_⟩
  obtain ⟨t1, e1, hs1⟩ := hs.of_lookups fun p hpm => PefTrie.answer h hg (hm p hpm)
  have hsave := StCount.lookups_save (jp := jp) (c := c) hG.keeps hR.keeps e1
  obtain ⟨k1, k2, k3⟩ := count_queried (pef_keeps junkU junkD) e1 o3
  obtain ⟨t2, e2, hs2, hl, l1, -, -, l2⟩ := hf.load hs
  have hV2 := vlaid_loaded hjp0 (kg' := Option.map PefObj.scanned) rfl (pef_loaded hu' hj') o3 hl
  refine ⟨t1, e1, hprint k1 k2 k3, t2, by rw [hsave]; exact C36_file e2 header, hprint l1 l2 hV2, fun after hm' => ?_⟩
  obtain ⟨t3, e3, -⟩ := hs2.of_lookups fun p hpm => PefTrie.answer h hg (hm' p hpm)
  obtain ⟨k1, k2, k3⟩ := count_queried (pef_keeps junkU' junkD') e3 hV2
  exact ⟨t3, e3, hprint (k1.trans l1) (k2.trans l2) k3⟩


namespace PefStats

/-- A trie that has scored has the sequences of the trie. -/
theorem prob_queried {G : GramsSt} {R : RanksSt} {K V D : Type} [DecidableEq K] [FloatArith V] {kg : Option G.S → Option D} (hk : G.Keeps kg)
    {H : D → List Nat → Prop} {U : List K} {lv : List (List (List K))} {ro : Nat} {fb : FloatBits V} {t t1 : StProb K V G R} {d : Nat} {one : V} {n : Nat}
    {ops : List (Nat × Option K)} {v : List (Option (V × Bool))} (e : t.session fb d one n ops = some (v, t1))
    (h : VLaid H U lv ro (t.arrs.map (StArray.view kg))) : t1.order = t.order ∧ VLaid H U lv ro (t1.arrs.map (StArray.view kg)) := by
  obtain ⟨k1, k2⟩ := StProb.session_key hk (kr := fun _ => ()) (fun _ _ _ _ _ => rfl) e
  rw [view_of_key k1]
  exact ⟨by rw [k2], h⟩

end PefStats

open Stats PefStats in
/-- **C53** for backoff tries over `uniform_pef_sequence` grams: just built, after any scoring that C55 covers, and loaded from the file, `print_stats`
prints the numbers that the ARPA file determines. -/
theorem C53_pef_backoff_trie {K V F : Type} [DecidableEq K] [FloatArith V] [Add F] [Mul F] [Div F] [NatCast F] (log2 : F → F)
    {iter : List (Nat × Nat) → List (Nat × Nat)} (hiter : ∀ m, (iter m).Perm m)
    (fb : FloatBits V) {sort : List V → List V} (hsort : ∀ l, (sort l).Perm l ∧ (sort l).Pairwise (· ≤ ·))
    (negInf : V) (unkWord : K) (default unk : V) {U : List K} {data : List (List (List K × V × V))} {ro pb bb : Nat}
    (h : Spec.ProbFiles U data ro) (hp : Spec.PefFiles U (TrieProb.asCounts data) ro) (hq : Spec.Quantisable data pb bb) (hbits : pb + bb ≤ 58)
    (hfb : ∀ f0, data[0]? = some f0 → ∀ r ∈ f0, fb.dec (fb.enc r.2.1) = r.2.1 ∧ fb.dec (fb.enc r.2.2) = r.2.2)
    (hcb : ∀ ps bs, Quant.codebooks sort negInf pb bb data = some (.ok (ps, bs)) → ∀ l ∈ ps ++ bs, ∀ x ∈ l, Spec.IsFloat fb x)
    (hunk : Spec.IsFloat fb (Spec.unkProb unkWord default (data.getD 0 []) unk))
    {hv : Mphf K 64} (hb : hv.BuiltFrom U) {c : Emphf K 64} (hc : Spec.EmphfReads c hv)
    {junkU junkD junk junkU' junkD' junk' : Nat → List W} (hu : ∀ k, junkU k ≠ []) (hjd : ∀ k, junkD k ≠ []) (hj : ∀ k, junk k ≠ [])
    (hu' : ∀ k, junkU' k ≠ []) (hjd' : ∀ k, junkD' k ≠ []) (hj' : ∀ k, junk' k ≠ []) {jr : CompactVector} {jp : EF} (hjr : jr.Fits) (hjp : jp.Fits)
    (hjp0 : jp.size = 0) (header : Byte) :
    ∃ t, StProb.build fb sort negInf unkWord default hv (GramsSt.pef junkU junkD) (RanksData.cv.st junk) ro unk pb bb data = some (.ok t) ∧
      (∃ x : Printed F, t.printStats Scanner.pef (Option.map PefObj.scanned) log2 iter = some x ∧
        Spec.TrieNumbers log2 U (data.map (·.map (·.1.reverse))) ro [] x) ∧
      ∀ (n : Nat) (ops : List (Nat × Option K)) (d : Nat) (one : V), (∀ o ∈ ops, o.1 < n) →
        Spec.SessionGrams (Spec.PefScorable hv U data ro) ops (fun _ => []) →
        ∃ scores t1, t.session fb d one n ops = some (scores, t1) ∧
          (∃ x : Printed F, t1.printStats Scanner.pef (Option.map PefObj.scanned) log2 iter = some x ∧
            Spec.TrieNumbers log2 U (data.map (·.map (·.1.reverse))) ro [] x) ∧
          ∃ t2, loadFile (StProb.load (GramsFile.pef junkU' junkD') (RanksFile.data RanksData.cv junk' jr) fb c)
              (saveFile header (t1.save (GramsFile.pef junkU junkD) (RanksFile.data RanksData.cv junk jr) jp fb c bb)) =
              some (t2, (saveFile header (t1.save (GramsFile.pef junkU junkD) (RanksFile.data RanksData.cv junk jr) jp fb c bb)).length) ∧
            (∃ x : Printed F, t2.printStats Scanner.pef (Option.map PefObj.scanned) log2 iter = some x ∧
              Spec.TrieNumbers log2 U (data.map (·.map (·.1.reverse))) ro [] x) ∧
            ∀ (n : Nat) (ops : List (Nat × Option K)) (d : Nat) (one : V) (scores : List (Option (V × Bool)))
              (t3 : StProb K V (GramsSt.pef junkU' junkD') (RanksData.cv.st junk')), t2.session fb d one n ops = some (scores, t3) →
              ∃ x : Printed F, t3.printStats Scanner.pef (Option.map PefObj.scanned) log2 iter = some x ∧
                Spec.TrieNumbers log2 U (data.map (·.map (·.1.reverse))) ro [] x := by
  obtain ⟨tq, qp, qb, a1, -, a2⟩ := C36_pef_trie_prob_through_a_file fb hsort negInf unkWord default unk h hp hq hbits hfb hcb hunk hb hc hu hjd hj
    hu' hjd' hj' hjr hjp header
  obtain ⟨ps, bs, e1, e2, e3⟩ := Quant.codebooks_ok hsort negInf h.arpa.order_min hq
  have hlen : ∀ f ∈ data, f.length < 2 ^ 56 := by
    intro f hf
    have := TrieCount.len_of_size (TrieProb.asCounts_ok h) (f := f.map fun r => (r.1.reverse, 0)) (List.mem_map.2 ⟨f, hf, rfl⟩)
    rwa [List.length_map] at this
  obtain ⟨t, f1, f2, f3⟩ := TrieProb.build_any fb negInf unkWord default unk h hb (G := PefTrie.ideal) (J := RanksData.cv.ideal)
    (ex := PefTrie.ClearAt U (data.map (·.map (·.1.reverse))) ro)
    (fun k prev curr h1 h2 => by
      have := PefTrie.grams_exact (TrieProb.asCounts_ok h) hp k prev curr
      rw [TrieProb.asCounts_map] at this
      exact this h1 h2)
    (fun k f rs hf hl hr => by
      have := hlen f (List.mem_of_getElem? hf)
      refine RanksData.ideal_exact ⟨fun mem hm => ?_, fun d e => CompactVector.buildFrom_fits (Res.lift_ok_iff e) (by rw [List.length_map]; omega)⟩
      rw [RanksData.cv_impl]
      exact TrieImpl.cv_exact (junk := fun _ => mem) hm hr) hbits e1 e2
  have hd : data[0]? = some (data.getD 0 []) := by
    rw [List.getD_eq_getElem?_getD, List.getElem?_eq_getElem (by have := h.arpa.order_min; omega)]; rfl
  rw [← findUnk_spec unkWord default _ unk (h.arpa.distinct _ (List.mem_of_getElem? hd))] at hunk
  have hG := GramsFile.pef_stores hu hjd hu' hjd'
  have hR := RanksFile.data_stores (R := RanksData.cv) .cv hj hj' (junk := jr) (junk' := jr) hjr
  have hpow := hq.probs.2
  obtain ⟨t', b1, hs, hf⟩ := StProb.build_filed hG hR hjp fb h (by omega) hb hc hcb hunk f1
  rw [a1] at b1
  cases b1
  have hvoc : ∀ w ∈ U, (t.voc.lookupPair w).map (fun p => p.1.toNat) = some (U.idxOf w) := by
    intro w hw
    have hU1 : (data.getD 0 []).map (·.1.reverse) = U.map fun w => [w] := by
      have hU0 := h.trie.unigrams
      rw [List.getElem?_map, hd] at hU0
      exact Option.some.inj hU0
    have : [w] ∈ (data.getD 0 []).map (·.1.reverse) := by rw [hU1]; exact List.mem_map.2 ⟨w, hw, rfl⟩
    obtain ⟨r, hr, hrw⟩ := List.mem_map.1 this
    obtain ⟨x, x1, x2⟩ := f2.voc _ hd r hr w (by rw [← List.reverse_reverse r.1, hrw]; rfl)
    rw [x1, Option.map_some, x2]
  obtain ⟨rks, hrl, hB, -⟩ := f2.built
  have hlev := TrieProb.asCounts_map data
  obtain ⟨t'', e'', o1, o3⟩ := prob_vlaid (G := GramsSt.pef junkU junkD) (kg := (Option.map PefObj.scanned : Option PefObj → _)) (R := RanksData.cv.st junk)
    hG.implements hR.implements (pef_keeps junkU junkD) rfl (H := PefH) h (by
      have := pef_level (TrieProb.asCounts_ok h) hp hu hjd
      rw [hlev] at this
      exact this) fb f1 hrl hB hvoc
  rw [a1] at e''
  cases e''
  have hprint : ∀ {junkU junkD : Nat → List W} {R : RanksSt} {s : StProb K V (GramsSt.pef junkU junkD) R}, s.order = tq.order →
      VLaid PefH U (data.map (·.map (·.1.reverse))) ro (s.arrs.map (StArray.view (Option.map PefObj.scanned))) →
      ∃ x : Printed F, s.printStats Scanner.pef (Option.map PefObj.scanned) log2 iter = some x ∧
        Spec.TrieNumbers log2 U (data.map (·.map (·.1.reverse))) ro [] x := fun h1 h3 =>
    prob_printed h log2 hiter (h1.trans o1) (PefStats.VLaid.mono (fun _ _ => PefH.holds) h3)
  refine ⟨tq, a1, hprint rfl o3, fun n ops d one hops hV => ?_⟩
  obtain ⟨t1, g1, g2, g3⟩ := a2 n ops d one hops hV
  obtain ⟨k1, k3⟩ := prob_queried (pef_keeps junkU junkD) g1 o3
  obtain ⟨t2, r2, hs2, hl, l1'⟩ := hf.load (by omega : bb < 256) hs
  have l1 : t2.order = tq.order := by rw [l1']
  have hV2 := vlaid_loaded hjp0 (kg' := Option.map PefObj.scanned) rfl (pef_loaded hu' hjd') o3 hl
  refine ⟨_, t1, g1, hprint k1 k3, t2, by rw [g2]; exact C36_file r2 header, hprint l1 hV2, fun n ops d one scores t3 e3 => ?_⟩
  obtain ⟨k1, k3⟩ := prob_queried (pef_keeps junkU' junkD') e3 hV2
  exact hprint (k1.trans l1) k3


open Stats PefStats in
/-- **C53** for count tries over `fast_ef_sequence` grams with any of the rank sequences, also those that queries change: the same. -/
theorem C53_ef_count_trie {K F : Type} [DecidableEq K] [Add F] [Mul F] [Div F] [NatCast F] (log2 : F → F)
    {iter : List (Nat × Nat) → List (Nat × Nat)} (hiter : ∀ m, (iter m).Perm m) {L : SortLib} (hL : L.Valid) {U : List K}
    {files : List (List (List K × Nat))} {ro : Nat} (h : Spec.CountFiles U files ro)
    {hv : Mphf K 64} (hb : hv.BuiltFrom U) {c : Emphf K 64} (hc : Spec.EmphfReads c hv) {hr : Nat → Mphf Nat 64} (hh : Spec.RangeHashes hr files)
    {c' : Emphf Nat 64} (hc' : ∀ k, Spec.EmphfReads c' (hr k)) {ju : UTable Nat 64} (hju : ju.Fits c') {jg : FastEF} (hjg : jg.Fits c')
    {junkU junkD junkU' junkD' : Nat → List W} (hu : ∀ k, junkU k ≠ []) (hj : ∀ k, junkD k ≠ []) (hu' : ∀ k, junkU' k ≠ []) (hj' : ∀ k, junkD' k ≠ [])
    (pr : PefRanks) (hpr : ∀ f ∈ files, f.length < pr.maxLines) {ji : ICSeq} {je jp : EF} (hji : ji.Fits) (hje : je.Fits) (hjp : jp.Fits)
    (hjp0 : jp.size = 0) (header : Byte) :
    ∃ t, StCount.build L hv (GramsData.fastEF hr c' ju).st (pr.stored junkU junkD) ro files = some (.ok t) ∧
      (∃ x : Printed F, t.printStats Scanner.fastEF (fun o : Option FastEF => o) log2 iter = some x ∧
        Spec.TrieNumbers log2 U (files.map (·.map (·.1))) ro (files.map fun f => (f.map (·.2)).dedup.length) x) ∧
      ∀ before : List (List K × Nat), (∀ p ∈ before, (∃ f ∈ files, p ∈ f) ∨ (p.2 = NF ∧ Spec.EfAbsent hv U files ro p.1)) →
        ∃ t1, t.lookups (before.map (·.1)) = some (before.map (·.2), t1) ∧
          (∃ x : Printed F, t1.printStats Scanner.fastEF (fun o : Option FastEF => o) log2 iter = some x ∧
            Spec.TrieNumbers log2 U (files.map (·.map (·.1))) ro (files.map fun f => (f.map (·.2)).dedup.length) x) ∧
          ∃ t2, loadFile (StCount.load (GramsFile.data (GramsData.fastEF hr c' ju) jg) (pr.file junkU' junkD' ji je) c)
              (saveFile header (t1.save (GramsFile.data (GramsData.fastEF hr c' ju) jg) (pr.file junkU junkD ji je) jp c)) =
              some (t2, (saveFile header (t1.save (GramsFile.data (GramsData.fastEF hr c' ju) jg) (pr.file junkU junkD ji je) jp c)).length) ∧
            (∃ x : Printed F, t2.printStats Scanner.fastEF (fun o : Option FastEF => o) log2 iter = some x ∧
              Spec.TrieNumbers log2 U (files.map (·.map (·.1))) ro (files.map fun f => (f.map (·.2)).dedup.length) x) ∧
            ∀ after : List (List K × Nat), (∀ p ∈ after, (∃ f ∈ files, p ∈ f) ∨ (p.2 = NF ∧ Spec.EfAbsent hv U files ro p.1)) →
              ∃ t3, t2.lookups (after.map (·.1)) = some (after.map (·.2), t3) ∧
                ∃ x : Printed F, t3.printStats Scanner.fastEF (fun o : Option FastEF => o) log2 iter = some x ∧
                  Spec.TrieNumbers log2 U (files.map (·.map (·.1))) ro (files.map fun f => (f.map (·.2)).dedup.length) x := by
  have hsz : ∀ f ∈ files, f.length < 2 ^ 57 := fun f hf => by have := TrieCount.len_of_size h hf; omega
  obtain ⟨t, e, hg⟩ := TrieCount.build_ok hL (G := (GramsData.fastEF hr c' ju).limit) (ex := fun _ _ => True) h.data h.order_min h.order_max h.remapping
    h.counts hsz hb (fun k prev curr h1 h2 => by
      refine GramsData.limit_exact (fun d ed => ?_) (TrieCount.fastEF_levels h hh k prev curr h1 h2)
      obtain ⟨ptrs', q1, q2, -⟩ :=
        C38_pointers_delimit_children (pat := List.dropLast) (Trie.lex_irrefl U) (Trie.lex_trans U) (h.data.sorted k prev h1)
          (Trie.patterns_sorted (h.data.len _ curr h2) (h.data.words _ curr h2) (h.data.sorted _ curr h2)) (h.data.prefix_closed k prev curr h1 h2)
      rw [q2] at q1
      exact fastEF_level_fits h hh hc' hju k prev curr h1 h2 _ _ d q1 (by rw [List.length_map]) ed) (PefRanks.exact h pr hpr)
  have hans : ∀ p : List K × Nat, ((∃ f ∈ files, p ∈ f) ∨ (p.2 = NF ∧ Spec.EfAbsent hv U files ro p.1)) → t.lookup p.1 = some p.2 := by
    rintro p (⟨f, hf, hpf⟩ | ⟨h1, h2, h3, h4, h5, h6, h7⟩)
    · exact TrieCount.lookup_present hg h.data h.remapping h.order_max hsz hf hpf
    · rw [h1]; exact TrieCount.absent_of_good h hg h2 h3 h4 h5 h6 h7 (fun _ _ _ _ _ _ _ => trivial) (fun _ _ _ _ _ _ => trivial)
  have hG := GramsFile.fastEF_stores (hr := hr) hju (junk := jg) (junk' := jg) hjg
  have hR := pr.stores hu hj hu' hj' hji hje
  obtain ⟨t', e', hs, hf⟩ := StCount.build_filed hG hR hjp hL h hb hc e
  obtain ⟨rks, hrl, hB⟩ := hg.built
  have hkeep : (GramsData.fastEF hr c' ju).st.Keeps (fun o : Option FastEF => o) := by
    intro s b e id r s' h
    obtain ⟨v, -, h⟩ := Option.map_eq_some_iff.1 h
    cases h
    rfl
  let H : FastEF → List Nat → Prop := fun g vals => g.Fits c' ∧ g.ef.Holds vals
  obtain ⟨t'', e'', o1, o2, o3⟩ := count_vlaid (G := (GramsData.fastEF hr c' ju).st) (kg := fun o : Option FastEF => o) (R := pr.stored junkU junkD) hG.implements
    hR.implements hkeep rfl (H := H) hL h (by
      intro k pv curr s hpv hc2 eb
      obtain ⟨f, f1, f2⟩ := fastEF_built h hh k pv curr hpv hc2
      have eb' : FastEF.build (hr (k + 2)) (curr.map (Spec.storedId U ((files.map (·.map (·.1))).getD ro []) ro)) (Spec.childPtrs List.dropLast curr pv) =
        some (.ok s) := eb
      obtain ⟨ptrs', q1, q2, -⟩ :=
        C38_pointers_delimit_children (pat := List.dropLast) (Trie.lex_irrefl U) (Trie.lex_trans U) (h.data.sorted k pv hpv)
          (Trie.patterns_sorted (h.data.len _ curr hc2) (h.data.words _ curr hc2) (h.data.sorted _ curr hc2)) (h.data.prefix_closed k pv curr hpv hc2)
      rw [q2] at q1
      have hfit := fastEF_level_fits h hh hc' hju k pv curr hpv hc2 _ _ s q1 (by rw [List.length_map]) eb
      rw [f1] at eb'
      cases eb'
      exact ⟨_, rfl, hfit.1, f2⟩) e hrl hB hg.voc
  rw [e'] at e''
  cases e''
  have hprint : ∀ {R : RanksSt} {s : StCount K (GramsData.fastEF hr c' ju).st R}, s.order = t'.order → s.counts = t'.counts →
      VLaid (fun g vals => g.ef.Holds vals) U (files.map (·.map (·.1))) ro (s.arrs.map (StArray.view (fun o : Option FastEF => o))) →
      ∃ x : Printed F, s.printStats Scanner.fastEF (fun o : Option FastEF => o) log2 iter = some x ∧
        Spec.TrieNumbers log2 U (files.map (·.map (·.1))) ro (files.map fun f => (f.map (·.2)).dedup.length) x := fun h1 h2 h3 =>
    count_printed h log2 hiter (h1.trans o1) (by rw [h2]; exact o2) (PefStats.VLaid.mono (fun _ _ => Scanner.fastEF_holds) h3)
  have o3' := PefStats.VLaid.mono (H' := fun g vals => g.ef.Holds vals) (fun _ _ h => h.2) o3
  refine ⟨t', e', hprint rfl rfl o3', fun before hm => ?_⟩
  obtain ⟨t1, e1, hs1⟩ := hs.of_lookups fun p hpm => hans p (hm p hpm)
  have hsave := StCount.lookups_save (jp := jp) (c := c) hG.keeps hR.keeps e1
  obtain ⟨k1, k2, k3⟩ := count_queried hkeep e1 o3'
  obtain ⟨t2, e2, hs2, hl, l1, -, -, l2⟩ := hf.load hs
  have hV2 := vlaid_loaded hjp0 (kg' := fun o : Option FastEF => o) (H' := fun g vals => g.ef.Holds vals) rfl (by
    rintro i d vals o o' rfl ⟨h1, h2⟩ hrd
    have hr1 : Spec.Reads (Rd.bind (FastEF.load c') fun d => Rd.ret (some d)) (FastEF.save c' ju d) o' := hrd
    have hr2 : Spec.Reads (Rd.bind (FastEF.load c') fun d => Rd.ret (some d)) (FastEF.save c' ju d) _ := .last (C36_fast_ef h1 hju) rfl
    have e := (hr2 []).symm.trans (hr1 [])
    have e2 := congrArg Prod.fst (Option.some.inj e)
    rw [← show _ = o' from e2]
    exact ⟨_, rfl, h2⟩) o3 hl
  refine ⟨t1, e1, hprint k1 k2 k3, t2, by rw [hsave]; exact C36_file e2 header, hprint l1 l2 hV2, fun after hm' => ?_⟩
  obtain ⟨t3, e3, -⟩ := hs2.of_lookups fun p hpm => hans p (hm' p hpm)
  obtain ⟨k1, k2, k3⟩ := count_queried hkeep e3 hV2
  exact ⟨t3, e3, hprint (k1.trans l1) (k2.trans l2) k3⟩


namespace PefStatsExample
open TrieCountExample PefTrieExample TrieProbExample PefProbExample PefSaveExample

/-- The pointers that are not built are empty. -/
def noPtrs : EF := ⟨0, 0, ⟨0, []⟩, DArray.empty, ⟨0, []⟩⟩

theorem noPtrs_fits : noPtrs.Fits := by simp [noPtrs, EF.Fits, BitVector.Fits, DArray.Fits, DArray.empty]

/-- The hypotheses of the three theorems are met. -/
example := C53_pef_count_trie (F := ℚ) id (iter := List.reverse) (fun m => List.reverse_perm m) exLib_valid (files4_ok 2 (by omega)) files4_pef
  MphExample.built voc_read (junkU := fun _ => [7]) (junkD := fun _ => [9]) (junkU' := fun _ => [1, 5]) (junkD' := fun _ => [3])
  (by simp) (by simp) (by simp) (by simp) (.pspef true) (by simp [files4, PefRanks.maxLines]) ic_fits SaveExample.ptrs_fits noPtrs_fits rfl 9#8

example := C53_ef_count_trie (F := ℚ) id (iter := List.reverse) (fun m => List.reverse_perm m) exLib_valid (files4_ok 1 (by omega))
  MphExample.built voc_read hashes4 (c' := SaveExample.codec) (fun _ => ⟨SaveExample.hashers.1, SaveExample.pairs (by decide) (by decide)⟩)
  SaveExample.junk_fits (jg := ⟨SaveExample.ptrs, none, [1, 2]⟩) (SaveExample.fef_fits [1, 2] (by decide) (by decide))
  (junkU := fun _ => [7]) (junkD := fun _ => [9]) (junkU' := fun _ => [1, 5]) (junkD' := fun _ => [3]) (by simp) (by simp) (by simp) (by simp)
  (.pspef false) (by simp [files4, PefRanks.maxLines]) ic_fits SaveExample.ptrs_fits noPtrs_fits rfl 9#8

example := C53_pef_backoff_trie (F := ℚ) id (iter := id) (fun _ => .refl _) EndExample.fb8 sortQ_ok (-1000) 9 (-100) (-100)
  (dataP_ok 0 (by omega)) (dataP_pef 0 (by omega)) dataP_quant (by decide)
  (by
    intro f0 hf r hr
    simp [dataP] at hf; subst hf
    simp at hr
    rcases hr with rfl | rfl | rfl <;> exact ⟨by decide +kernel, by decide +kernel⟩)
  codesP (EndExample.fb8_ok (by simp [Spec.unkProb, dataP])) MphExample.built voc_read
  (junkU := fun _ => [7]) (junkD := fun _ => [9]) (junk := fun _ => [0#64]) (junkU' := fun _ => [1, 5]) (junkD' := fun _ => [3])
  (junk' := fun _ => [4#64]) (by simp) (by simp) (by simp) (by simp) (by simp) (by simp)
  (jr := SaveExample.cvJunk) (by simp [SaveExample.cvJunk, CompactVector.Fits]) noPtrs_fits rfl 9#8

/-- What is printed for a small trie over `uniform_pef_sequence`: 3 unigrams, 4 bigrams. -/
example : (Option.bind (StCount.build exLib MphExample.mphf (GramsSt.pef (fun _ => [7]) fun _ => [9]) ((PefRanks.pspef true).stored (fun _ => [7]) fun _ => [9])
      0 files2) fun
    | .ok s => (s.printStats (F := ℚ) Stats.Scanner.pef (Option.map PefObj.scanned) id id).map fun p => (p.numGrams, p.distinct, p.levels.map StatsExample.numbers)
    | .error () => none) = some (7, [2, 3], [[3, 4, 0, 0, 0, 2, 2, 4, 2, 2, 2], [4, 0, 3, 3, 2]]) := by decide +kernel

end PefStatsExample

end Tongrams
