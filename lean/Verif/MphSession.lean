import Verif.PefProb
import Verif.MphProb

/-!
# C30 for hash models: several states on one model

The hash backoff model identifies the words of a state by their addresses (mph_prob_lm.hpp:130-215), so the words that one state scores between two resets must be
consecutive words of a text; the words that different states score may lie anywhere.
-/

set_option linter.unusedSectionVars false

namespace Tongrams

/-- Specification: the words scored with each state since its last reset (`hist`, most recent first) are consecutive words of the text, whose n-grams are
recognised (C23). -/
def Spec.TextSession {B : Nat} {F : Type} (hs : Nat → Mphf (List Byte) B) (data : List (List (List (List Byte) × F × F))) (text : Mem) :
    List (Nat × Option ByteRange) → (Nat → List ByteRange) → Prop
  | [], _ => True
  | (i, none) :: ops, hist => TextSession hs data text ops fun j => if j = i then [] else hist j
  | (i, some r) :: ops, hist =>
    (∃ off ws, At text off (joinSp ws) ∧ (∀ w ∈ ws, Spec.IsWord w) ∧ Spec.GramsRecognised hs data ws ∧ (r :: hist i).reverse = wordRanges off ws) ∧
    TextSession hs data text ops fun j => if j = i then r :: hist i else hist j

/-! ## Proofs -/

theorem Spec.TextSession.grams {B : Nat} {F : Type} {hs : Nat → Mphf (List Byte) B} {data : List (List (List (List Byte) × F × F))} {text : Mem}
    (ops : List (Nat × Option ByteRange)) : ∀ hist : Nat → List ByteRange, Spec.TextSession hs data text ops hist →
    Spec.SessionGrams (fun g => MphProb.IsGram hs data text g.reverse) ops hist := by
  induction ops with
  | nil => intro _ _; trivial
  | cons o ops ih =>
    intro hist h
    obtain ⟨i, _ | r⟩ := o
    · exact ih _ h
    · obtain ⟨⟨off, ws, h1, h2, h3, h4⟩, h5⟩ := h
      refine ⟨fun k hk _ => ?_, ih _ h5⟩
      simp only [List.reverse_reverse]
      refine occurs_isGram h1 h2 h3 ⟨(hist i).length, k, ?_, hk, ?_⟩
      · rw [← h4]; simp
      · rw [← h4, List.take_of_length_le (i := (hist i).length + 1) (by simp), List.reverse_reverse]

theorem Spec.Arpa.comap_session {K K' F : Type} [LogProb F] (A : Spec.Arpa K F) (f : K' → K) (ops : List (Nat × Option K')) :
    ∀ hist : Nat → List K', (A.comap f).session ops hist = A.session (ops.map fun o => (o.1, o.2.map f)) (fun i => (hist i).map f) := by
  induction ops with
  | nil => intro _; rfl
  | cons o ops ih =>
    intro hist
    obtain ⟨i, _ | w⟩ := o
    · simp only [session, List.map_cons, Option.map_none, ih]
      congr 2
      funext j
      split <;> simp
    · simp only [session, List.map_cons, Option.map_some, ih, comap_score, comap_kept, List.map_reverse, List.map_take]
      congr 1
      congr 1
      funext j
      split <;> simp

section
variable {F : Type} [FloatArith F] {B : Nat}

/-- **C30**, for several states on a hash model: in any interleaving of words scored with any number of states on one model, and of resets of these states, each
word gets its score after the history of its own state (C28), whatever the other states have been used for. -/
theorem C30_mph_states_independent (fb : FloatBits F) {sort : List F → List F} (hsort : ∀ l, (sort l).Perm l ∧ (sort l).Pairwise (· ≤ ·))
    (negInf default unk : F) {mem pb bb : Nat} (extra : Nat) {hs : Nat → Mphf (List Byte) B} {data : List (List (List (List Byte) × F × F))}
    (h : Spec.MphProbInput fb mem pb bb hs data) :
    ∃ m qp qb, MphProb.build fb sort negInf default unk mem extra hs pb bb (Spec.lines data) = some (.ok m) ∧ Spec.Quantised data pb bb qp qb ∧
      ∀ (text : Mem) (n : Nat) (ops : List (Nat × Option ByteRange)) (d : Nat) (one : F), (∀ o ∈ ops, o.1 < n) →
        Spec.TextSession hs data text ops (fun _ => []) →
        ∃ st0 sts, PState.new m.order d one = some st0 ∧ (m.scorer fb text).session ops (List.replicate n st0) =
          some ((Spec.Arpa.ofData data (Spec.unkProb Spec.unkText default (data.getD 0 []) unk) qp qb).session
            (ops.map fun o => (o.1, o.2.map (slice text))) (fun _ => []), sts) := by
  obtain ⟨ps, bs, hcb, hc, hq⟩ := Quant.codebooks_ok hsort negInf h.arpa.order_min h.quant
  obtain ⟨m, A, e1, rfl, wf, hI⟩ := MphProb.correct fb (sort := sort) negInf default unk extra h hcb hc
  refine ⟨m, _, _, e1, hq, fun text n ops d one hops hses => ?_⟩
  obtain ⟨I⟩ := hI text
  have wf' := Spec.Arpa.comap_wellFormed wf (slice text)
  obtain ⟨st, s1, s2, -⟩ := Scorer.new_inv wf' (fun r : ByteRange => r.1) d one
  obtain ⟨sts, s3⟩ := Scorer.session_spec I wf' n ops (List.replicate n st) (fun _ => []) (by simp) hops
    (fun i st' hi => by
      rw [List.getElem?_replicate] at hi
      split at hi
      · cases hi; exact s2
      · cases hi) (Spec.TextSession.grams ops _ hses)
  refine ⟨st, sts, ?_, ?_⟩
  · have : (m.scorer fb text).order = _ := I.order
    rw [← s1, ← this]; rfl
  · rw [s3, Spec.Arpa.comap_session]; rfl

end

namespace MphProbExample
open TrieProbExample (sortQ sortQ_ok fbQ)

/-- Two states on one model: state 0 scores "a b c", state 1 scores "b a" in between, from the text "a b c e b a"; then state 0 is reset and scores "e". -/
def textS : Mem := joinSp [w 0, w 1, w 2, w 4, w 1, w 0]
def opsS : List (Nat × Option ByteRange) := [(0, some (0, 1)), (1, some (8, 9)), (0, some (2, 3)), (1, some (10, 11)), (0, some (4, 5)), (0, none), (0, some (6, 7))]

theorem opsS_ok : Spec.TextSession hs data textS opsS (fun _ => []) := by
  have hw : ∀ l : List Nat, (∀ i ∈ l, i < 8) → ∀ v ∈ l.map w, Spec.IsWord v := by
    intro l hl v hv
    obtain ⟨i, hi, rfl⟩ := List.mem_map.1 hv
    exact w_word i (hl i hi)
  refine ⟨⟨0, [0].map w, by unfold At textS; decide, hw _ (by decide), recognised _, by decide⟩,
    ⟨8, [1].map w, by unfold At textS; decide, hw _ (by decide), recognised _, by decide⟩,
    ⟨0, [0, 1].map w, by unfold At textS; decide, hw _ (by decide), recognised _, by decide⟩,
    ⟨8, [1, 0].map w, by unfold At textS; decide, hw _ (by decide), recognised _, by decide⟩,
    ⟨0, [0, 1, 2].map w, by unfold At textS; decide, hw _ (by decide), recognised _, by decide⟩,
    ⟨6, [4].map w, by unfold At textS; decide, hw _ (by decide), recognised _, by decide⟩, trivial⟩

example := C30_mph_states_independent fbQ sortQ_ok (-1000) (-100) (-100) 0 data_input

/-- C30, defect: a hash model joins the words of a state by their addresses, so two words score as a bigram only if they are neighbours in the text: "b" then "a" gets
the bigram's -1/2 from the text "b a", but the back-off score -1 - 2 if "b" is taken from elsewhere; and if "b" lies after "a", the model reads a range that ends
before it begins. -/
theorem C30_mph_scattered_words_defect :
    (Option.bind (MphProb.build fbQ (fun l => l.foldr PefProbExample.insQ []) (-1000) (-100) (-100) 200 0 hs 2 2 (Spec.lines data)) fun
      | .ok m => (PState.new m.order 7 1).map fun st =>
          [[(0, some (8, 9)), (0, some (10, 11))], [(0, some (2, 3)), (0, some (10, 11))], [(0, some (8, 9)), (0, some (0, 1))]].map
            fun ops => ((m.scorer fbQ textS).session ops [st]).map (·.1)
      | .error _ => none) = some [some [some (-3, false), some (-1/2, false)], some [some (-3, false), some (-3, false)], none] := by
  decide +kernel

end MphProbExample
end Tongrams
