import Verif.FastEF

/-!
# The pointers of a trie level

The loop of `build_ngrams` that computes the pointers from the sorted n-grams of two consecutive orders
(trie_count_lm.hpp:160-246, trie_prob_lm.hpp:203-291).
-/

namespace Tongrams

/-- `while (prv != end and !equal_bytes(pattern, prv.gram)) { pointers.push_back(pointer); ++prv; }`
(trie_count_lm.hpp:186-196, trie_prob_lm.hpp:236-246): the pointers pushed and the remaining n-grams of the previous
order. -/
def skipTo {H : Type} [DecidableEq H] (pattern : H) (pointer : Nat) : List H → List Nat × List H
  | [] => ([], [])
  | q :: qs => if pattern = q then ([], q :: qs) else
      let r := skipTo pattern pointer qs
      (pointer :: r.1, r.2)

/-- The loop over the n-grams of the current order and the loop that sets the remaining pointers
(trie_count_lm.hpp:170-245, trie_prob_lm.hpp:213-290), the pointers part of it.  `error`: `exit(1)` because the
pattern was not found. -/
def pointersLoop {G H : Type} [DecidableEq H] (pat : G → H) : List G → List H → Nat → Except Unit (List Nat)
  | [], rem, pointer => .ok (rem.map fun _ => pointer)
  | g :: gs, rem, pointer =>
    let r := skipTo (pat g) pointer rem
    if r.2.isEmpty then .error () else (pointersLoop pat gs r.2 (pointer + 1)).map (r.1 ++ ·)

/-- The pointers of a level: `pointers.push_back(0)` first (trie_count_lm.hpp:167, trie_prob_lm.hpp:210). -/
def buildPointers {G H : Type} [DecidableEq H] (pat : G → H) (curr : List G) (prev : List H) : Except Unit (List Nat) :=
  (pointersLoop pat curr prev 0).map (0 :: ·)

/-- Partial sums. -/
def Spec.psums (a : Nat) : List Nat → List Nat
  | [] => []
  | c :: cs => (a + c) :: Spec.psums (a + c) cs

/-- Specification of the pointers: 0 followed by the running total of the number of children of each n-gram of the
previous order. -/
def Spec.childPtrs {G H : Type} [DecidableEq H] (pat : G → H) (curr : List G) (prev : List H) : List Nat :=
  0 :: Spec.psums 0 (prev.map fun p => curr.countP fun g => decide (pat g = p))

namespace TriePtrs
variable {G H : Type} [DecidableEq H] {pat : G → H}

theorem loop_nil (g : G) (gs : List G) (pointer : Nat) : pointersLoop pat (g :: gs) [] pointer = .error () := rfl

theorem loop_eq (g : G) (gs : List G) (q : H) (qs : List H) (pointer : Nat) (h : pat g = q) :
    pointersLoop pat (g :: gs) (q :: qs) pointer = pointersLoop pat gs (q :: qs) (pointer + 1) := by
  rw [pointersLoop]
  simp only [skipTo, if_pos h, List.isEmpty_cons, Bool.false_eq_true, if_false, List.nil_append]
  cases pointersLoop pat gs (q :: qs) (pointer + 1) <;> rfl

theorem loop_ne (g : G) (gs : List G) (q : H) (qs : List H) (pointer : Nat) (h : pat g ≠ q) :
    pointersLoop pat (g :: gs) (q :: qs) pointer = (pointersLoop pat (g :: gs) qs pointer).map (pointer :: ·) := by
  rw [pointersLoop, pointersLoop]
  simp only [skipTo, if_neg h]
  split
  · rfl
  · cases pointersLoop pat gs _ (pointer + 1) <;> rfl

/-- The two lists can be scanned in parallel. -/
inductive Aligned (pat : G → H) : List G → List H → Prop
  | nil (rem) : Aligned pat [] rem
  | here {g gs q qs} : pat g = q → Aligned pat gs (q :: qs) → Aligned pat (g :: gs) (q :: qs)
  | skip {curr q qs} : (∀ g ∈ curr, pat g ≠ q) → Aligned pat curr qs → Aligned pat curr (q :: qs)

theorem Aligned.mem {curr : List G} {rem : List H} (h : Aligned pat curr rem) : ∀ g ∈ curr, pat g ∈ rem := by
  induction h with
  | nil => simp
  | here h1 _ ih =>
    intro g hg
    rcases List.mem_cons.1 hg with rfl | hg
    · rw [h1]; exact List.mem_cons_self
    · exact ih g hg
  | skip _ _ ih => exact fun g hg => List.mem_cons_of_mem _ (ih g hg)

theorem psums_zeros (rem : List H) (pointer : Nat) :
    Spec.psums pointer (rem.map fun p => ([] : List G).countP fun g => decide (pat g = p)) = rem.map fun _ => pointer := by
  induction rem with
  | nil => rfl
  | cons q qs ih =>
    simp only [List.map_cons, Spec.psums, List.countP_nil, Nat.add_zero] at ih ⊢
    rw [ih]

theorem loop_spec {curr : List G} {rem : List H} (h : Aligned pat curr rem) (hn : rem.Nodup) (pointer : Nat) :
    pointersLoop pat curr rem pointer =
      .ok (Spec.psums pointer (rem.map fun p => curr.countP fun g => decide (pat g = p))) := by
  induction h generalizing pointer with
  | nil rem => rw [pointersLoop, psums_zeros]
  | @here g gs q qs h1 h2 ih =>
    rw [loop_eq _ _ _ _ _ h1, ih hn]
    congr 1
    simp only [List.map_cons, Spec.psums, List.countP_cons, h1, decide_true, if_true]
    rw [show pointer + 1 + gs.countP (fun g => decide (pat g = q)) = pointer + (gs.countP (fun g => decide (pat g = q)) + 1) by
      omega]
    congr 2
    apply List.map_congr_left
    intro p hp
    rw [if_neg, Nat.add_zero]
    simp only [decide_eq_true_eq]
    rintro rfl
    exact (List.nodup_cons.1 hn).1 hp
  | @skip curr q qs h1 h2 ih =>
    have hc : curr.countP (fun g => decide (pat g = q)) = 0 := by
      rw [List.countP_eq_zero]; intro g hg; simpa using h1 g hg
    cases curr with
    | nil => rw [pointersLoop, psums_zeros]
    | cons g gs =>
      rw [loop_ne _ _ _ _ _ (h1 g List.mem_cons_self), ih (List.nodup_cons.1 hn).2]
      simp only [List.map_cons, Spec.psums, hc, Nat.add_zero]
      rfl

theorem psums_length (a : Nat) (cs : List Nat) : (Spec.psums a cs).length = cs.length := by
  induction cs generalizing a with
  | nil => rfl
  | cons c cs ih => simp [Spec.psums, ih]

theorem psums_mono (a : Nat) (cs : List Nat) : (a :: Spec.psums a cs).Pairwise (· ≤ ·) := by
  induction cs generalizing a with
  | nil => simp [Spec.psums]
  | cons c cs ih =>
    have := ih (a + c)
    rw [Spec.psums, List.pairwise_cons]
    refine ⟨fun x hx => ?_, this⟩
    rcases List.mem_cons.1 hx with rfl | hx
    · omega
    · have := (List.pairwise_cons.1 this).1 x hx; omega

theorem psums_last (a : Nat) (cs : List Nat) : (a :: Spec.psums a cs).getLast? = some (a + cs.sum) := by
  induction cs generalizing a with
  | nil => simp [Spec.psums]
  | cons c cs ih =>
    rw [Spec.psums, List.getLast?_cons_cons, ih, List.sum_cons, Nat.add_assoc]

/-- The `j`-th block delimited by the pointers is exactly the block of the elements with the `j`-th pattern. -/
theorem blocks {curr : List G} {rem : List H} (h : Aligned pat curr rem) (hn : rem.Nodup) (a : Nat) :
    ∀ j b e q, (a :: Spec.psums a (rem.map fun p => curr.countP fun g => decide (pat g = p)))[j]? = some b →
      (a :: Spec.psums a (rem.map fun p => curr.countP fun g => decide (pat g = p)))[j + 1]? = some e → rem[j]? = some q →
      ∀ i g, curr[i]? = some g → (b ≤ a + i ∧ a + i < e ↔ pat g = q) := by
  induction h generalizing a with
  | nil => intro j b e q _ _ _ i g hg; simp at hg
  | @here g0 gs q0 qs h1 h2 ih =>
    intro j b e q hb he hq i g hg
    have hq0 : ∀ p ∈ qs, (g0 :: gs).countP (fun g => decide (pat g = p)) = gs.countP (fun g => decide (pat g = p)) := by
      intro p hp
      rw [List.countP_cons, if_neg, Nat.add_zero]
      simp only [decide_eq_true_eq, h1]
      rintro rfl
      exact (List.nodup_cons.1 hn).1 hp
    have hmap : (qs.map fun p => (g0 :: gs).countP fun g => decide (pat g = p)) =
        qs.map fun p => gs.countP fun g => decide (pat g = p) := List.map_congr_left hq0
    have hcnt : (g0 :: gs).countP (fun g => decide (pat g = q0)) = gs.countP (fun g => decide (pat g = q0)) + 1 := by
      rw [List.countP_cons, if_pos (by simp [h1])]
    -- the same pointers, seen from `a + 1`
    have hpt : ∀ k, (a :: Spec.psums a ((q0 :: qs).map fun p => (g0 :: gs).countP fun g => decide (pat g = p)))[k + 1]? =
        ((a + 1) :: Spec.psums (a + 1) ((q0 :: qs).map fun p => gs.countP fun g => decide (pat g = p)))[k + 1]? := by
      intro k
      simp only [List.map_cons, Spec.psums, hcnt, hmap, List.getElem?_cons_succ]
      rw [show a + (gs.countP (fun g => decide (pat g = q0)) + 1) = a + 1 + gs.countP (fun g => decide (pat g = q0)) by omega]
    rw [hpt] at he
    cases i with
    | zero =>
      simp only [List.getElem?_cons_zero, Option.some.injEq] at hg
      subst hg
      cases j with
      | zero =>
        simp only [List.getElem?_cons_zero, Option.some.injEq] at hb hq
        subst hb hq
        refine ⟨fun _ => h1, fun _ => ⟨by omega, ?_⟩⟩
        simp only [List.map_cons, Spec.psums, List.getElem?_cons_succ, List.getElem?_cons_zero, Option.some.injEq] at he
        omega
      | succ j =>
        rw [hpt] at hb
        constructor
        · rintro ⟨hb1, -⟩
          have hm := List.mem_of_getElem? hb
          have := psums_mono (a + 1) ((q0 :: qs).map fun p => gs.countP fun g => decide (pat g = p))
          rw [List.getElem?_cons_succ] at hb
          have := (List.pairwise_cons.1 this).1 b (List.mem_of_getElem? hb)
          omega
        · intro hp
          exfalso
          rw [h1] at hp
          rw [List.getElem?_cons_succ] at hq
          subst hp
          exact (List.nodup_cons.1 hn).1 (List.mem_of_getElem? hq)
    | succ i =>
      simp only [List.getElem?_cons_succ] at hg
      cases j with
      | zero =>
        simp only [List.getElem?_cons_zero, Option.some.injEq] at hb
        subst hb
        have := ih hn (a + 1) 0 (a + 1) e q rfl he hq i g hg
        rw [← this]
        constructor
        · rintro ⟨_, h⟩; exact ⟨by omega, by omega⟩
        · rintro ⟨_, h⟩; exact ⟨by omega, by omega⟩
      | succ j =>
        rw [hpt] at hb
        have := ih hn (a + 1) (j + 1) b e q hb he hq i g hg
        rw [← this]
        constructor
        · rintro ⟨h, h'⟩; exact ⟨by omega, by omega⟩
        · rintro ⟨h, h'⟩; exact ⟨by omega, by omega⟩
  | @skip curr q0 qs h1 h2 ih =>
    intro j b e q hb he hq i g hg
    have hc : curr.countP (fun g => decide (pat g = q0)) = 0 := by
      rw [List.countP_eq_zero]; intro g hg; simpa using h1 g hg
    simp only [List.map_cons, Spec.psums, hc, Nat.add_zero] at hb he
    cases j with
    | zero =>
      simp only [List.getElem?_cons_zero, List.getElem?_cons_succ, Option.some.injEq] at hb he hq
      subst hb he hq
      constructor
      · intro h; omega
      · intro h; exact absurd h (h1 g (List.mem_of_getElem? hg))
    | succ j =>
      simp only [List.getElem?_cons_succ] at hb he hq
      exact ih (List.nodup_cons.1 hn).2 a j b e q (by simpa using hb) (by simpa using he) hq i g hg

theorem sum_counts {curr : List G} {rem : List H} (hm : ∀ g ∈ curr, pat g ∈ rem) (hn : rem.Nodup) :
    (rem.map fun p => curr.countP fun g => decide (pat g = p)).sum = curr.length := by
  induction curr with
  | nil =>
    simp only [List.countP_nil, List.length_nil]
    clear hm hn
    induction rem with
    | nil => rfl
    | cons q qs ih => simp [ih]
  | cons g gs ih =>
    have h1 := ih (fun g hg => hm g (List.mem_cons_of_mem _ hg))
    have h2 : pat g ∈ rem := hm g List.mem_cons_self
    have key : ∀ (l : List H), l.Nodup → ∀ f : H → Nat,
        (l.map fun p => f p + if decide (pat g = p) then 1 else 0).sum = (l.map f).sum + if pat g ∈ l then 1 else 0 := by
      intro l hl f
      induction l with
      | nil => simp
      | cons q qs ih2 =>
        have hq := List.nodup_cons.1 hl
        rw [List.map_cons, List.sum_cons, ih2 hq.2, List.map_cons, List.sum_cons]
        by_cases e : pat g = q
        · subst e; simp [hq.1]; omega
        · simp only [e, decide_false, Bool.false_eq_true, if_false, List.mem_cons, false_or]; omega
    simp only [List.countP_cons]
    rw [key rem hn, h1, if_pos h2]
    rfl

/-- Sorted lists are aligned: if `prev` is strictly increasing for a transitive, irreflexive relation and the patterns of
`curr` never decrease. -/
theorem Aligned.of_sorted {curr : List G} {prev : List H} {lt : H → H → Prop} (hirr : ∀ x, ¬ lt x x)
    (htr : ∀ x y z, lt x y → lt y z → lt x z) (hp : prev.Pairwise lt)
    (hc : (curr.map pat).Pairwise fun x y => lt x y ∨ x = y) (hm : ∀ g ∈ curr, pat g ∈ prev) : Aligned pat curr prev := by
  induction prev generalizing curr with
  | nil =>
    cases curr with
    | nil => exact .nil _
    | cons g gs => exact absurd (hm g List.mem_cons_self) (by simp)
  | cons q qs ih =>
    have hq := List.pairwise_cons.1 hp
    induction curr with
    | nil => exact .nil _
    | cons g gs ih2 =>
      rw [List.map_cons, List.pairwise_cons] at hc
      by_cases e : pat g = q
      · exact .here e (ih2 hc.2 (fun g hg => hm g (List.mem_cons_of_mem _ hg)))
      · have hgq : pat g ∈ qs := by
          rcases List.mem_cons.1 (hm g List.mem_cons_self) with h | h
          · exact absurd h e
          · exact h
        have hlt : lt q (pat g) := hq.1 _ hgq
        have hall : ∀ g' ∈ g :: gs, lt q (pat g') := by
          intro g' hg'
          rcases List.mem_cons.1 hg' with rfl | hg'
          · exact hlt
          · rcases hc.1 _ (List.mem_map_of_mem hg') with h | h
            · exact htr _ _ _ hlt h
            · rw [← h]; exact hlt
        have hne : ∀ g' ∈ g :: gs, pat g' ≠ q := by
          intro g' hg' e'
          have := hall g' hg'
          rw [e'] at this
          exact hirr _ this
        refine .skip hne (ih hq.2 (by rw [List.map_cons, List.pairwise_cons]; exact hc) ?_)
        intro g' hg'
        rcases List.mem_cons.1 (hm g' hg') with h | h
        · exact absurd h (hne g' hg')
        · exact h

end TriePtrs

/-- **C38.** Let the n-grams of the previous order be listed in strictly increasing order (for any strict order), those
of the current order with never decreasing patterns, and let every pattern be among the n-grams of the previous order.
Then `build_ngrams` succeeds and its pointers are 0 and the running totals of the numbers of children; there is one more
of them than n-grams of the previous order, they start at 0, never decrease and end at the number of n-grams of the
current order; and the `j`-th range consists of exactly those n-grams of the current order whose pattern is the `j`-th
n-gram of the previous order. -/
theorem C38_pointers_delimit_children {G H : Type} [DecidableEq H] {pat : G → H} {curr : List G} {prev : List H}
    {lt : H → H → Prop} (hirr : ∀ x, ¬ lt x x) (htr : ∀ x y z, lt x y → lt y z → lt x z) (hp : prev.Pairwise lt)
    (hc : (curr.map pat).Pairwise fun x y => lt x y ∨ x = y) (hm : ∀ g ∈ curr, pat g ∈ prev) :
    ∃ ptrs, buildPointers pat curr prev = .ok ptrs ∧ ptrs = Spec.childPtrs pat curr prev ∧
      ptrs.length = prev.length + 1 ∧ Spec.Pointers ptrs curr.length ∧
      ∀ j b e q, ptrs[j]? = some b → ptrs[j + 1]? = some e → prev[j]? = some q →
        ∀ i g, curr[i]? = some g → (b ≤ i ∧ i < e ↔ pat g = q) := by
  have ha := TriePtrs.Aligned.of_sorted hirr htr hp hc hm
  have hn : prev.Nodup := by
    refine List.Pairwise.imp ?_ hp
    rintro a b h rfl
    exact hirr a h
  refine ⟨_, ?_, rfl, ?_, ⟨rfl, TriePtrs.psums_mono 0 _, ?_⟩, ?_⟩
  · rw [buildPointers, TriePtrs.loop_spec ha hn]; rfl
  · simp [Spec.childPtrs, TriePtrs.psums_length]
  · rw [Spec.childPtrs, TriePtrs.psums_last, TriePtrs.sum_counts hm hn, Nat.zero_add]
  · intro j b e q hb he hq i g hg
    have := TriePtrs.blocks ha hn 0 j b e q hb he hq i g hg
    rwa [Nat.zero_add] at this

/-- Conversely, a current-order n-gram whose pattern is missing from the previous order makes the builder give up. -/
theorem C38_missing_pattern_exits {G H : Type} [DecidableEq H] {pat : G → H} {curr : List G} {prev : List H} {g : G}
    (hg : g ∈ curr) (hm : pat g ∉ prev) : buildPointers pat curr prev = .error () := by
  have key : ∀ (curr : List G) (prev : List H) (pos : Nat), g ∈ curr → pat g ∉ prev → pointersLoop pat curr prev pos = .error () := by
    intro curr
    induction curr with
    | nil => intro _ _ h; simp at h
    | cons x xs ih =>
      intro prev
      induction prev with
      | nil => intro pos _ _; rfl
      | cons q qs ih2 =>
        intro pos h1 h2
        have h3 : pat g ≠ q ∧ pat g ∉ qs := by simpa using h2
        by_cases e : pat x = q
        · rw [TriePtrs.loop_eq _ _ _ _ _ e]
          rcases List.mem_cons.1 h1 with rfl | h1
          · exact absurd e h3.1
          · exact ih _ _ h1 h2
        · rw [TriePtrs.loop_ne _ _ _ _ _ e, ih2 pos h1 h3.2]; rfl
  rw [buildPointers, key curr prev 0 hg hm]; rfl

/-- Non-vacuity: a two-level example with a childless n-gram in the middle and at the end. -/
example : buildPointers (fun g : List Nat => g.dropLast) [[0, 1], [0, 2], [2, 0]] [[0], [1], [2], [3]] =
    .ok [0, 2, 2, 3, 3] := by decide

end Tongrams
