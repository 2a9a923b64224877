import Verif.PefTrie
import Verif.PefIter

/-! # Threads in a `uniform_pef_sequence` (C62)

`operator[]` and `find` of a `uniform_pef_sequence` (uniform_pef_sequence.hpp:155-191) work on the enumerator `e` that is a member of the sequence, so all
threads that query the same trie share it.  Simplification: a thread is interrupted only between the three calls `find` makes. -/

set_option linter.unusedSectionVars false

namespace Tongrams
namespace PEF

/-- Where a thread is in `find` (uniform_pef_sequence.hpp:159-191): it has yet to select the partition; it has yet to read the value before the range; it has yet
to search for `lb`, in the partitions up to `last`; it has the result. -/
inductive FindPc
  | start (b en id : Nat)
  | prev (b en id : Nat)
  | search (lb last : Nat)
  | done (pos : Nat)
deriving DecidableEq

section
variable (f : PEF) (junkU junkD : List W)

/-- One step of a thread in `find`, uniform_pef_sequence.hpp:159-191 (`switch_partition`; `operator[]`; `next_geq`); every step changes the enumerator all
threads use. -/
def findStep (pc : FindPc) (e : PEnum) : Option (FindPc × PEnum) :=
  match pc with
  | .start b en id =>
    if b = en then some (.done NF, e)
    else if id = 0 then some (.done b, e)
    else (if f.partitions > 1 then f.switch junkU e (b / 2 ^ f.logPart) else some e).map fun e => (.prev b en id, e)
  | .prev b en id =>
    (if b ≠ 0 then f.get junkU junkD e (b - 1) else some (0, e)).map fun r => (.search ((id + r.1) % 2 ^ 64) (en / 2 ^ f.logPart), r.2)
  | .search lb last => (f.findFrom junkU junkD lb last e).map fun r => (.done r.1, r.2)
  | .done p => some (.done p, e)

/-- The threads, each in a call of `find` (uniform_pef_sequence.hpp:159-191), make steps in the order of the schedule. -/
def findRun : List Nat → List FindPc → PEnum → Option (List FindPc × PEnum)
  | [], pcs, e => some (pcs, e)
  | i :: is, pcs, e =>
    match pcs[i]? with
    | none => findRun is pcs e
    | some pc => (findStep f junkU junkD pc e).bind fun r => findRun is (pcs.set i r.1) r.2

end

theorem findStep_done (f : PEF) (junkU junkD : List W) (p : Nat) (e : PEnum) : findStep f junkU junkD (.done p) e = some (.done p, e) := rfl

/-- Three steps of one thread in a row are a `find`. -/
theorem find_steps (f : PEF) (junkU junkD : List W) (b en id : Nat) (e : PEnum) :
    ((findStep f junkU junkD (.start b en id) e).bind fun r => (findStep f junkU junkD r.1 r.2).bind fun r => findStep f junkU junkD r.1 r.2) =
      (f.find junkU junkD e b en id).map fun r => (.done r.1, r.2) := by
  unfold find
  by_cases h1 : b = en
  · simp only [findStep, if_pos h1, Option.bind_some, Option.map_some]
  · by_cases h2 : id = 0
    · simp only [findStep, if_neg h1, if_pos h2, Option.bind_some, Option.map_some]
    · simp only [findStep, if_neg h1, if_neg h2]
      cases hs : (if f.partitions > 1 then f.switch junkU e (b / 2 ^ f.logPart) else some e) with
      | none => rfl
      | some e1 =>
        simp only [Option.map_some, Option.bind_some]
        cases (if b ≠ 0 then f.get junkU junkD e1 (b - 1) else some (0, e1)) with
        | none => rfl
        | some r => simp only [Option.map_some, Option.bind_some]

theorem findRun_turn {f : PEF} {junkU junkD : List W} {i b en id : Nat} {pcs : List FindPc} (hi : pcs[i]? = some (.start b en id)) {e e1 : PEnum} {r : Nat}
    (h : f.find junkU junkD e b en id = some (r, e1)) (rest : List Nat) :
    findRun f junkU junkD ([i, i, i] ++ rest) pcs e = findRun f junkU junkD rest (pcs.set i (.done r)) e1 := by
  have hlt := (List.getElem?_eq_some_iff.1 hi).1
  have hs := find_steps f junkU junkD b en id e
  rw [h, Option.map_some] at hs
  obtain ⟨⟨p1, x1⟩, s1, hs⟩ := Option.bind_eq_some_iff.1 hs
  obtain ⟨⟨p2, x2⟩, s2, s3⟩ := Option.bind_eq_some_iff.1 hs
  simp only at s2 s3
  have g : ∀ p : FindPc, (pcs.set i p)[i]? = some p := fun p => by rw [List.getElem?_set_self hlt]
  show findRun f junkU junkD (i :: i :: i :: rest) pcs e = _
  simp only [findRun, hi, s1, Option.bind_some, g, s2, s3, List.set_set]

/-- Threads that take turns make a session of the sequence. -/
theorem findRun_turns {f : PEF} {junkU junkD : List W} : ∀ (order : List Nat) (qs : List (Nat × Nat × Nat)) (pcs : List FindPc) (e e' : PEnum) (rs : List Nat),
    order.Nodup → (∀ (j i : Nat) (q : Nat × Nat × Nat), order[j]? = some i → qs[j]? = some q → pcs[i]? = some (.start q.1 q.2.1 q.2.2)) →
    qs.length = order.length → runFrom f junkU junkD e (qs.map fun q => .find q.1 q.2.1 q.2.2) = some (rs, e') →
    ∃ pcs', findRun f junkU junkD (order.flatMap fun i => [i, i, i]) pcs e = some (pcs', e') ∧
      (∀ (j i r : Nat), order[j]? = some i → rs[j]? = some r → pcs'[i]? = some (.done r)) ∧ ∀ i, i ∉ order → pcs'[i]? = pcs[i]?
  | [], [], pcs, e, e', rs, _, _, _, h => by
    cases h
    exact ⟨pcs, rfl, by simp, fun _ _ => rfl⟩
  | [], q :: qs, _, _, _, _, _, _, hl, _ => by simp at hl
  | i :: order, [], _, _, _, _, _, _, hl, _ => by simp at hl
  | i :: order, q :: qs, pcs, e, e', rs, hn, hp, hl, h => by
    obtain ⟨⟨r, e1⟩, h1, h⟩ := Option.bind_eq_some_iff.1 (show ((Op.find q.1 q.2.1 q.2.2).run f junkU junkD e).bind _ = _ from h)
    obtain ⟨⟨rs', e2⟩, h2, h⟩ := Option.map_eq_some_iff.1 h
    cases h
    have h0 := hp 0 i q rfl rfl
    have hlt := (List.getElem?_eq_some_iff.1 h0).1
    obtain ⟨hni, hn'⟩ := List.nodup_cons.1 hn
    obtain ⟨pcs', r1, r2, r3⟩ := findRun_turns order qs (pcs.set i (.done r)) e1 e2 rs' hn' (by
      intro j i' q' hj hq'
      have hne : i ≠ i' := fun e => hni (e ▸ List.mem_of_getElem? hj)
      rw [List.getElem?_set_ne hne]
      exact hp (j + 1) i' q' hj hq') (by simpa using hl) h2
    refine ⟨pcs', ?_, ?_, ?_⟩
    · rw [List.flatMap_cons, findRun_turn h0 h1]
      exact r1
    · intro j i' r' hj hr'
      cases j with
      | zero =>
        cases hj; cases hr'
        rw [r3 i hni, List.getElem?_set_self hlt]
      | succ j => exact r2 j i' r' hj hr'
    · intro i' hi'
      rw [List.mem_cons, not_or] at hi'
      rw [r3 i' hi'.2, List.getElem?_set_ne fun e => hi'.1 e.symm]

end PEF

open PEF in
/-- **C62** for `uniform_pef_sequence`, whose `find` works on an enumerator that all threads share: threads that take turns, in any order, get what C18 says;
`order` lists the threads as they get their turns. -/
theorem C62_pef_searches_in_turns {grams ptrs : List Nat} {ord : Nat} (hne : grams ≠ [])
    (hp : Spec.Pointers ptrs grams.length) (hr : Spec.RangeStrict grams ptrs)
    (hb : ∀ v ∈ Spec.absVals grams ptrs [], v < 2 ^ 57) (hn : grams.length < 2 ^ 56)
    (hd : grams.length ≤ 2 ^ logPartOf ord → (Spec.absVals grams ptrs []).getD (grams.length - 1) 0 < 2 ^ 31 - 1)
    (heq : grams.length ≤ 2 ^ logPartOf ord → 2 ≤ grams.length → grams.getD 0 0 ≠ 0 → ∃ k, 0 < k ∧ k < grams.length ∧ grams.getD k 0 ≠ 0) :
    ∃ f, PEF.build grams ptrs ord = some (.ok f) ∧
      ∀ (junkU junkD : List W), junkU ≠ [] → junkD ≠ [] → ∃ e, f.init junkU junkD = some e ∧ ∀ qs : List (Nat × Nat × Nat),
        (∀ q ∈ qs, SearchOk grams ptrs (2 ^ logPartOf ord) q.1 q.2.1 q.2.2) → ∀ order : List Nat, order.Nodup → (∀ i ∈ order, i < qs.length) →
        ∃ pcs e', findRun f junkU junkD (order.flatMap fun i => [i, i, i]) (qs.map fun q => .start q.1 q.2.1 q.2.2) e = some (pcs, e') ∧
          ∀ i ∈ order, ∀ b en id, qs[i]? = some (b, en, id) → ∃ r, pcs[i]? = some (.done r) ∧
            (∀ k, b ≤ k → k < en → grams.getD k 0 = id → r = k) ∧
            (id ≠ 0 → (∀ k, b ≤ k → k < en → grams.getD k 0 ≠ id) →
              r = NF ∨ (∀ k, b ≤ k → k < en → grams.getD k 0 < id) ∧ en ≤ r ∧ r ≤ grams.length) := by
  obtain ⟨f, f1, f2⟩ := C18_find_after_searches (order := ord) hne hp hr hb hn hd heq
  refine ⟨f, f1, fun junkU junkD hu hj => ?_⟩
  obtain ⟨rs0, i1, -⟩ := f2 junkU junkD hu hj [] (by simp)
  unfold session at i1
  obtain ⟨e, e1, -⟩ := Option.bind_eq_some_iff.1 i1
  refine ⟨e, e1, fun qs hqs order hnd hlt => ?_⟩
  obtain ⟨rs, r1, r2, r3⟩ := f2 junkU junkD hu hj (order.map fun i => qs.getD i (0, 0, 0)) (by
    intro q hq
    obtain ⟨i, hi, rfl⟩ := List.mem_map.1 hq
    rw [List.getD_eq_getElem?_getD, List.getElem?_eq_getElem (hlt i hi)]
    exact hqs _ (List.getElem_mem _))
  unfold session at r1
  rw [e1, Option.bind_some] at r1
  obtain ⟨⟨rs', e'⟩, h1, h2⟩ := Option.map_eq_some_iff.1 r1
  cases h2
  obtain ⟨pcs, p1, p2, -⟩ := findRun_turns order (order.map fun i => qs.getD i (0, 0, 0)) (qs.map fun q => .start q.1 q.2.1 q.2.2) e e' rs' hnd (by
    intro j i q hj hq
    rw [List.getElem?_map, hj] at hq
    cases hq
    have := hlt i (List.mem_of_getElem? hj)
    beta_reduce
    rw [List.getElem?_map, List.getD_eq_getElem?_getD, List.getElem?_eq_getElem this]
    rfl) (by rw [List.length_map]) h1
  refine ⟨pcs, e', p1, fun i hi b en id hq => ?_⟩
  obtain ⟨j, hj⟩ := List.mem_iff_getElem?.1 hi
  have hjl := (List.getElem?_eq_some_iff.1 hj).1
  replace r2 : rs'.length = order.length := by rw [List.length_map] at r2; exact r2
  have hrj : rs'[j]? = some (rs'[j]'(by omega)) := List.getElem?_eq_getElem _
  refine ⟨_, p2 j i _ hj hrj, r3 j b en id _ ?_ hrj⟩
  rw [List.getElem?_map, hj, Option.map_some, List.getD_eq_getElem?_getD, hq, Option.getD_some]

/-- C62, defect: 70 grams in two ranges and two partitions.  Thread 0 searches the first range for the gram 3, thread 1 the second range for the gram 35.  One
after the other they find both; if the whole search of thread 1 comes between the second and the third step of thread 0, thread 0 does not find the stored
gram. -/
theorem C62_pef_overlapping_searches_defect : (Option.bind (PEF.build (((List.range 35).map (· + 1)) ++ ((List.range 35).map (· + 1))) [0, 35, 70] 2) fun
    | .ok f => Option.bind (f.init [0] [0]) fun e =>
      let pcs := [PEF.FindPc.start 0 35 3, PEF.FindPc.start 35 70 35]
      some ((PEF.findRun f [0] [0] [0, 0, 0, 1, 1, 1] pcs e).map (·.1), (PEF.findRun f [0] [0] [0, 0, 1, 1, 1, 0] pcs e).map (·.1))
    | .error () => none) = some (some [.done 2, .done 69], some [.done NF, .done 69]) := by decide +kernel

example := C62_pef_searches_in_turns (grams := [3, 7, 0, 1, 4]) (ptrs := [0, 2, 2, 5]) (ord := 2) (by decide) ⟨rfl, by decide, rfl⟩
  (PEF.ex_ranges (by decide +kernel) ⟨rfl, by decide, rfl⟩) (by decide) (by decide) (by decide) (fun _ _ _ => ⟨1, by decide, by decide, by decide⟩)

end Tongrams
