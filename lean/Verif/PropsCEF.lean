import Verif.CompactEF
import Verif.PropsBitVector

/-!
# C48: a stand-alone compact Elias-Fano sequence

`compact_elias_fano::write` and its enumerator, for any number of values (with the sampled pointers, which the
partitions of `uniform_pef_sequence` are too small to have), against a cursor over a plain list.
-/

namespace Tongrams
open BitVector

/-! ## Specification: a cursor over a list -/

/-- The calls of an enumerator. -/
inductive CefOp where
  | move (p : Nat)
  | next
  | nextGeq (lb : Nat)
  | prevValue

namespace Spec

/-- The value at a position; the universe after the last. -/
def cefValue (vs : List Nat) (u p : Nat) : Nat := if p < vs.length then vs.getD p 0 else u

/-- The arguments that are allowed at position `p`. -/
def CefOk (vs : List Nat) (u p : Nat) : CefOp → Prop
  | .move q => q ≤ vs.length
  | .next => p < vs.length
  | .nextGeq lb => lb ≤ u
  | .prevValue => True

/-- Where the cursor goes: `next_geq(lb)` stays on a value equal to `lb`, and otherwise goes after the values that
are smaller than `lb`. -/
def cefGo (vs : List Nat) (u p : Nat) : CefOp → Nat
  | .move q => q
  | .next => p + 1
  | .nextGeq lb => if cefValue vs u p = lb then p else vs.countP (· < lb)
  | .prevValue => p

/-- The answer at the new position `p`. -/
def cefAnswer (vs : List Nat) (u p : Nat) : CefOp → Nat × Nat
  | .prevValue => (p, if p = 0 then 0 else vs.getD (p - 1) 0)
  | _ => (p, cefValue vs u p)

/-- All the calls of a session are allowed. -/
def CefSessionOk (vs : List Nat) (u : Nat) : Nat → List CefOp → Prop
  | _, [] => True
  | p, op :: ops => CefOk vs u p op ∧ CefSessionOk vs u (cefGo vs u p op) ops

/-- The answers of a session. -/
def cefSession (vs : List Nat) (u : Nat) : Nat → List CefOp → List (Nat × Nat)
  | _, [] => []
  | p, op :: ops => cefAnswer vs u (cefGo vs u p op) op :: cefSession vs u (cefGo vs u p op) ops

end Spec

namespace CEF

/-- One call; `prev_value` is paired with the position. -/
def Enum.call (ws junk : List W) (e : Enum) : CefOp → Option ((Nat × Nat) × Enum)
  | .move p => (e.move ws junk p).map fun e => ((e.position, e.value), e)
  | .next => (e.next ws junk).map fun e => ((e.position, e.value), e)
  | .nextGeq lb => (e.nextGeq ws junk lb).map fun e => ((e.position, e.value), e)
  | .prevValue => (e.prevValue ws junk).map fun v => ((e.position, v), e)

/-- A session on one enumerator. -/
def Enum.session (ws junk : List W) : Enum → List CefOp → Option (List (Nat × Nat))
  | _, [] => some []
  | e, op :: ops => (e.call ws junk op).bind fun r => (Enum.session ws junk r.2 ops).map (r.1 :: ·)

/-- `bitsize(params, universe, n)`, compact_elias_fano.hpp:57-60. -/
def bitsize (u n : Nat) : Nat := (offsets 0 u n).fin

theorem offsets_fin (base u n : Nat) : (offsets base u n).fin = base + bitsize u n := by
  simp only [bitsize, offsets]; omega

theorem lower_countP {vs : List Nat} {lb m : Nat} (hs : Spec.Sorted vs) (h : Spec.LowerBound vs lb m) : vs.countP (· < lb) = m := by
  obtain ⟨h1, h2, h3⟩ := h
  rw [← List.take_append_drop m vs, List.countP_append]
  have e1 : (vs.take m).countP (· < lb) = m := by
    rw [List.countP_eq_length.2, List.length_take, Nat.min_eq_left h1]
    intro a ha
    obtain ⟨i, hi, rfl⟩ := List.mem_iff_getElem.1 ha
    rw [List.length_take] at hi
    rw [List.getElem_take]
    have := h2 i (by omega)
    rw [List.getD_eq_getElem?_getD, List.getElem?_eq_getElem (by omega)] at this
    simpa using this
  have e2 : (vs.drop m).countP (· < lb) = 0 := by
    rw [List.countP_eq_zero]
    intro a ha
    obtain ⟨i, hi, rfl⟩ := List.mem_iff_getElem.1 ha
    rw [List.length_drop] at hi
    rw [List.getElem_drop]
    have ha := h3 (by omega)
    have hb := EF.sorted_getD hs (show m ≤ m + i by omega) (by omega)
    rw [List.getD_eq_getElem?_getD, List.getElem?_eq_getElem (by omega)] at ha
    rw [List.getD_eq_getElem?_getD, List.getD_eq_getElem?_getD, List.getElem?_eq_getElem (by omega), List.getElem?_eq_getElem (by omega)] at hb
    simp only [Option.getD_some] at ha hb
    simp only [decide_eq_true_eq]
    omega
  rw [e1, e2]; rfl

theorem Ctx.call_spec {ws : List W} {base off u : Nat} {vs : List Nat} (c : Ctx ws base off u vs) {junk : List W} (hj : junk ≠ [])
    (hvu : ∀ v ∈ vs, v < u) {e : Enum} (h : EInv ws base off u vs e) (hle : e.position ≤ vs.length) {op : CefOp}
    (hok : Spec.CefOk vs u e.position op) :
    ∃ e', e.call ws junk op = some (Spec.cefAnswer vs u (Spec.cefGo vs u e.position op) op, e') ∧ EInv ws base off u vs e' ∧
      e'.position = Spec.cefGo vs u e.position op ∧ e'.position ≤ vs.length := by
  have fin : ∀ {e' : Enum}, EInv ws base off u vs e' → (e'.position, e'.value) = (e'.position, Spec.cefValue vs u e'.position) := by
    intro e' h'; rw [h'.value]; rfl
  cases op with
  | move p =>
    obtain ⟨e', e1, h1, h2⟩ := c.move_spec hj h (p := p) hok
    refine ⟨e', ?_, h1, h2, by have : p ≤ vs.length := hok; omega⟩
    show (e.move ws junk p).map _ = _
    rw [e1, Option.map_some, fin h1, h2]; rfl
  | next =>
    obtain ⟨e', e1, h1, h2⟩ := c.next_spec hj h hok
    refine ⟨e', ?_, h1, h2, by have : e.position < vs.length := hok; omega⟩
    show (e.next ws junk).map _ = _
    rw [e1, Option.map_some, fin h1, h2]; rfl
  | nextGeq lb =>
    obtain ⟨m, hm⟩ := Spec.LowerBound.exists vs lb
    have hval : e.value = Spec.cefValue vs u e.position := h.value
    show ∃ e' : Enum, (e.nextGeq ws junk lb).map _ = some ((if Spec.cefValue vs u e.position = lb then e.position else vs.countP (· < lb),
      Spec.cefValue vs u (if Spec.cefValue vs u e.position = lb then e.position else vs.countP (· < lb))), e') ∧ _ ∧
      e'.position = (if Spec.cefValue vs u e.position = lb then e.position else vs.countP (· < lb)) ∧ _
    by_cases heq : Spec.cefValue vs u e.position = lb
    · rw [if_pos heq]
      refine ⟨e, ?_, h, rfl, hle⟩
      unfold Enum.nextGeq
      rw [if_pos (by omega), Option.map_some, fin h]
    · rw [if_neg heq, lower_countP c.sorted hm]
      obtain ⟨e', e1, h1, h2⟩ := c.nextGeq_any hj hvu h hm hok
      rcases h2 with h2 | h2
      · refine ⟨e', ?_, h1, h2, by have := hm.1; omega⟩
        rw [e1, Option.map_some, fin h1, h2]
      · exact absurd (hval.symm.trans h2.2) heq
  | prevValue =>
    refine ⟨e, ?_, h, rfl, hle⟩
    show (e.prevValue ws junk).map _ = some ((e.position, if e.position = 0 then 0 else vs.getD (e.position - 1) 0), e)
    by_cases h0 : e.position = 0
    · rw [if_pos h0]
      unfold Enum.prevValue
      rw [if_pos h0]; rfl
    · rw [if_neg h0, c.prevValue_spec hj h (by omega) hle]; rfl

theorem Ctx.session_spec {ws : List W} {base off u : Nat} {vs : List Nat} (c : Ctx ws base off u vs) {junk : List W} (hj : junk ≠ [])
    (hvu : ∀ v ∈ vs, v < u) : ∀ (ops : List CefOp) (e : Enum), EInv ws base off u vs e → e.position ≤ vs.length →
      Spec.CefSessionOk vs u e.position ops → e.session ws junk ops = some (Spec.cefSession vs u e.position ops) := by
  intro ops
  induction ops with
  | nil => intros; rfl
  | cons op ops ih =>
    intro e h hle hok
    obtain ⟨e', e1, h1, h2, h3⟩ := c.call_spec hj hvu h hle hok.1
    rw [Enum.session, e1, Option.bind_some]
    simp only
    rw [ih e' h1 h3 (by rw [h2]; exact hok.2), h2]
    rfl

/-- Values after a descent are not written. -/
theorem writeLoop_descent (of : Offsets) {v : Nat} {ws ws' : List Nat} :
    ∀ (pre : List Nat) (i last lastHigh : Nat) (b : BVBuilder), (0 < i + pre.length) →
      v < pre.getLast?.getD last →
      (writeLoop of (pre ++ ws') i last lastHigh b).isSome → (∀ r, writeLoop of (pre ++ ws') i last lastHigh b = some r → r ≠ .error ()) →
      writeLoop of (pre ++ v :: ws) i last lastHigh b = some (.error ()) := by
  intro pre
  induction pre with
  | nil =>
    intro i last lastHigh b hi hv _ _
    rw [List.nil_append, writeLoop, if_pos ⟨by simpa using Nat.ne_of_gt hi, hv⟩]
  | cons x pre ih =>
    intro i last lastHigh b _ hv hs hne
    rw [List.cons_append, writeLoop] at hs hne ⊢
    by_cases hc : i ≠ 0 ∧ x < last
    · rw [if_pos hc]
    · rw [if_neg hc] at hs hne ⊢
      cases h1 : b.set (of.hOff + (x / 2 ^ of.lowerBits + i + 1)) true with
      | none => rw [h1] at hs; cases hs
      | some b1 =>
        rw [h1, Option.bind_some] at hs hne
        rw [Option.bind_some]
        cases h2 : b1.setBits (of.lOff + i * of.lowerBits) (BitVec.ofNat 64 x &&& of.mask) of.lowerBits with
        | none => rw [h2] at hs; cases hs
        | some b2 =>
          rw [h2, Option.bind_some] at hs hne
          rw [Option.bind_some]
          cases h3 : setPtr1 of b2 i (x / 2 ^ of.lowerBits + i + 1) with
          | none => rw [h3] at hs; cases hs
          | some b3 =>
            rw [h3, Option.bind_some] at hs hne
            rw [Option.bind_some]
            cases h4 : setPtr0s of b3 (lastHigh + 1) (x / 2 ^ of.lowerBits + i + 1) i with
            | none => rw [h4] at hs; cases hs
            | some b4 =>
              rw [h4, Option.bind_some] at hs hne
              rw [Option.bind_some]
              refine ih (i + 1) x _ b4 (by omega) ?_ hs hne
              cases pre with
              | nil => simpa using hv
              | cons y ys =>
                rw [List.getLast?_cons_cons] at hv
                rw [List.getLast?_eq_some_getLast (List.cons_ne_nil y ys)] at hv ⊢
                exact hv

end CEF
open CEF

/-- C48. Any non-empty, non-decreasing list of values smaller than the universe `u` can be written after whatever the
builder already holds; what was there is kept and the encoding takes `bitsize(u, n)` bits. An enumerator opened on it
later, whatever was appended in the meantime, answers every session of `move`, `next`, `next_geq` and `prev_value`
calls as a cursor over the list does, and reads nothing outside the bits (`junk` is the memory after them). -/
theorem C48_every_session_is_a_cursor_over_the_list {b0 : BVBuilder} {l : List Bool} (hb : BVHistory b0 l) {u : Nat} {vs : List Nat}
    (hne : vs ≠ []) (hn : vs.length ≤ 2 ^ 55) (hu : u ≤ 2 ^ 57) (hv : ∀ v ∈ vs, v < u) (hs : Spec.Sorted vs) :
    ∃ b1, CEF.write b0 vs u = some (.ok b1) ∧ b1.WF ∧ b1.size = l.length + CEF.bitsize u vs.length ∧ b1.toBools.take l.length = l ∧
      ∀ (b2 : BVBuilder), b2.WF → b1.toBools <+: b2.toBools → ∀ (junk : List W), junk ≠ [] →
        ∀ ops : List CefOp, Spec.CefSessionOk vs u vs.length ops →
          (Enum.new l.length u vs.length).session (BitVector.ofBuilder b2).bits junk ops = some (Spec.cefSession vs u vs.length ops) := by
  obtain ⟨w0, t0⟩ := hb.wf
  have hn0 : 0 < vs.length := List.length_pos_iff.2 hne
  obtain ⟨b1, e1, w1, s1, k1, E⟩ := write_any w0 hn0 hn (u := u) (by omega) (fun v h => Nat.le_of_lt (hv v h)) hs
  have hsz := hb.size
  have hfin := offsets_fin l.length u vs.length
  rw [hsz] at s1 E
  rw [hsz] at k1
  refine ⟨b1, e1, w1, by rw [s1, hfin], ?_, ?_⟩
  · apply List.ext_getElem
    · rw [List.length_take, BVBuilder.length_toBools, s1, hfin]; omega
    · intro i h1 h2
      rw [List.getElem_take, BVBuilder.getElem_toBools, k1 i h2, hb.bitAt, List.getD_eq_getElem?_getD, List.getElem?_eq_getElem h2]; rfl
  · intro b2 w2 hpre junk hj ops hok
    have hlen := hpre.length_le
    rw [BVBuilder.length_toBools, BVBuilder.length_toBools] at hlen
    have hagree : ∀ x, x < b1.size → bitAt b2.bits x = bitAt b1.bits x := by
      intro x hx
      have := hpre.getElem (i := x) (by rw [BVBuilder.length_toBools]; exact hx)
      rw [BVBuilder.getElem_toBools, BVBuilder.getElem_toBools] at this
      exact this.symm
    have hps := (pointerSize_facts (base := l.length) hn0 hn (u := u) (by omega)).1
    have L := lay l.length u vs.length
    have hff := L.ffin
    have hhh := L.fhh
    have hp1 := L.fp1
    have hp0 := L.fp0
    rw [← s1] at hff
    have hz := Nat.zero_le (u / 2 ^ lowerBitsOf u vs.length)
    have E2 : Enc b2.bits (offsets l.length u vs.length) vs u (lowerBitsOf u vs.length) (offsets l.length u vs.length).hOff
        (offsets l.length u vs.length).pointerSize := by
      refine ⟨⟨fun x hx => ?_, fun k hk j hj => ?_⟩, fun k hk hkn j hj => ?_, fun k hk hkz => ?_⟩
      · rw [hagree _ (by omega)]; exact E.bits.ones x hx
      · have := Nat.mul_le_mul_right (lowerBitsOf u vs.length) (show k + 1 ≤ vs.length from hk)
        rw [Nat.succ_mul] at this
        rw [hagree _ (by omega)]; exact E.bits.lows k hk j hj
      · have hle := mul_fit (ps := (offsets l.length u vs.length).pointerSize) hk (show k ≤ vs.length / 2 ^ logSampling1 from
          (Nat.le_div_iff_mul_le (Nat.pow_pos (by omega))).2 (by omega))
        rw [hagree _ (by omega)]; exact E.ptr1 k hk hkn j hj
      · obtain ⟨c, c1, c2⟩ := E.ptr0 k hk hkz
        have hle := mul_fit (ps := (offsets l.length u vs.length).pointerSize) hk
          (show k ≤ (u / 2 ^ lowerBitsOf u vs.length + 2) / 2 ^ logSampling0 from (Nat.le_div_iff_mul_le (Nat.pow_pos (by omega))).2 (by omega))
        have h4 := Nat.zero_le (vs.length / 2 ^ logSampling1 * (offsets l.length u vs.length).pointerSize)
        refine ⟨c, c1, fun j hj => ?_⟩
        rw [hagree _ (by omega)]; exact c2 j hj
    have c : Ctx b2.bits l.length (offsets l.length u vs.length).hOff u vs :=
      Ctx.of_enc hn0 hn hu (fun v h => Nat.le_of_lt (hv v h)) hs (by have := w2.le; omega) E2
    exact c.session_spec hj hv ops _ (new_inv _ _ _ _ _) (Nat.le_refl _) hok

/-- C48. A list with a descent is refused with the exception of the code, wherever the descent is. -/
theorem C48_unsorted_refused {b0 : BVBuilder} {l : List Bool} (hb : BVHistory b0 l) {u : Nat} {vs : List Nat}
    (hn : vs.length ≤ 2 ^ 55) (hu : u < 2 ^ 64) (hv : ∀ v ∈ vs, v ≤ u) (hs : ¬ Spec.Sorted vs) :
    CEF.write b0 vs u = some (.error ()) := by
  -- the first descent
  have key : ∀ (vs : List Nat), ¬ Spec.Sorted vs → ∃ pre x v ws, vs = pre ++ x :: v :: ws ∧ v < x ∧ Spec.Sorted (pre ++ [x]) := by
    intro vs
    induction vs with
    | nil => intro h; exact absurd List.Pairwise.nil h
    | cons a vs ih =>
      intro h
      by_cases hs : Spec.Sorted vs
      · cases vs with
        | nil => exact absurd (List.pairwise_singleton _ _) h
        | cons y ys =>
          refine ⟨[], a, y, ys, rfl, ?_, List.pairwise_singleton _ _⟩
          apply Nat.lt_of_not_le; intro hle
          apply h
          refine List.pairwise_cons.2 ⟨fun z hz => ?_, hs⟩
          rcases List.mem_cons.1 hz with rfl | hz
          · exact hle
          · exact Nat.le_trans hle ((List.pairwise_cons.1 hs).1 z hz)
      · obtain ⟨pre, x, v, ws, e, hlt, hso⟩ := ih hs
        subst e
        by_cases ha : ∀ z ∈ pre ++ [x], a ≤ z
        · exact ⟨a :: pre, x, v, ws, rfl, hlt, List.pairwise_cons.2 ⟨ha, hso⟩⟩
        · cases pre with
          | nil =>
            refine ⟨[], a, x, v :: ws, rfl, ?_, List.pairwise_singleton _ _⟩
            apply Nat.lt_of_not_le; intro h'; exact ha (by intro z hz; rw [List.nil_append, List.mem_singleton] at hz; omega)
          | cons p pre =>
            refine ⟨[], a, p, pre ++ x :: v :: ws, rfl, ?_, List.pairwise_singleton _ _⟩
            apply Nat.lt_of_not_le; intro h'
            apply ha
            intro z hz
            rw [List.cons_append] at hz hso
            rcases List.mem_cons.1 hz with rfl | hz
            · exact h'
            · exact Nat.le_trans h' ((List.pairwise_cons.1 hso).1 z hz)
  obtain ⟨pre, x, v, ws, e, hlt, hso⟩ := key vs hs
  obtain ⟨w0, -⟩ := hb.wf
  -- the same prefix followed by a constant is sorted
  have hlen : (pre ++ [x] ++ List.replicate (ws.length + 1) u).length = vs.length := by rw [e]; simp
  obtain ⟨b1, e1, -⟩ := write_any w0 (u := u) (vs := pre ++ [x] ++ List.replicate (ws.length + 1) u) (by rw [hlen, e]; simp; omega) (by omega) hu
    (by
      intro z hz
      rcases List.mem_append.1 hz with hz | hz
      · exact hv z (by rw [e]; simp at hz ⊢; rcases hz with h | h <;> simp [h])
      · rw [List.mem_replicate] at hz; omega)
    (by
      refine List.pairwise_append.2 ⟨hso, List.pairwise_replicate.2 (Or.inr (Nat.le_refl _)), fun a ha z hz => ?_⟩
      rw [List.mem_replicate] at hz
      rw [hz.2]
      exact hv a (by rw [e]; simp at ha ⊢; rcases ha with h | h <;> simp [h]))
  unfold CEF.write at e1 ⊢
  rw [hlen] at e1
  simp only at e1 ⊢
  have e' : vs = (pre ++ [x]) ++ v :: ws := by rw [e]; simp
  generalize offsets b0.size u vs.length = of at *
  rw [e']
  refine writeLoop_descent of (ws' := List.replicate (ws.length + 1) u) (pre ++ [x]) 0 0 0 _ (by simp) (by simpa using hlt) ?_ ?_
  · rw [e1]; rfl
  · intro r hr; rw [e1] at hr; cases hr; intro h; cases h

/-! ## Concrete cases -/

/-- Six hundred values with 3 zeros between two ones: pointers to ones and to zeros are both stored. -/
example : let vs := (List.range 600).map (· * 3)
    vs ≠ [] ∧ vs.length ≤ 2 ^ 55 ∧ (∀ v ∈ vs, v < 1800) ∧ Spec.Sorted vs ∧
      (offsets 0 1800 vs.length).pointers0 = 1 ∧ (offsets 0 1800 vs.length).pointers1 = 2 ∧
      Spec.CefSessionOk vs 1800 vs.length [.move 299, .prevValue, .nextGeq 1500, .next, .nextGeq 7, .nextGeq 1800] ∧
      Spec.cefSession vs 1800 vs.length [.move 299, .prevValue, .nextGeq 1500, .next, .nextGeq 7, .nextGeq 1800] =
        [(299, 897), (299, 894), (500, 1500), (501, 1503), (3, 9), (600, 1800)] := by
  have hl : ((List.range 600).map (· * 3)).length = 600 := by simp
  refine ⟨by simp, by rw [hl]; omega, by simp; omega, ?_, by decide +kernel, by decide +kernel, ?_, by decide +kernel⟩
  · refine List.pairwise_map.2 (List.Pairwise.imp (fun h => ?_) List.pairwise_lt_range)
    omega
  · simp only [Spec.CefSessionOk, Spec.CefOk, Spec.cefGo, hl]
    refine ⟨by omega, trivial, by omega, by decide +kernel, by omega, by omega, trivial⟩

/-- A list with a descent. -/
example : ∃ b0 l, BVHistory b0 l ∧ ¬ Spec.Sorted [1, 5, 4, 9] :=
  ⟨_, _, .new 3 true, by unfold Spec.Sorted; decide⟩

/-- C48, defect: `next_geq` beyond the universe moves the position past the end: with the one value 1 and universe 2,
two calls of `next_geq(3)` answer positions 2 and 3 of a sequence of size 1. -/
theorem C48_next_geq_beyond_universe_defect : (Option.bind (CEF.write (BVBuilder.new 0 false) [1] 2) fun
    | .ok b => (Enum.new 0 2 1).session b.bits [0] [.nextGeq 3, .nextGeq 3]
    | .error () => none) = some [(2, 2), (3, 2)] := by decide +kernel

/-- C48, defect: a value equal to the universe, which `write` accepts, is found by `next_geq` or not depending on the calls before: with the values 1 and
100 and universe 100, the first `next_geq(100)` answers the end, position 2; after `move(0)` the same call answers position 1. -/
theorem C48_value_equal_to_universe_defect : (Option.bind (CEF.write (BVBuilder.new 0 false) [1, 100] 100) fun
    | .ok b => (Enum.new 0 100 2).session b.bits [0] [.nextGeq 100, .move 0, .nextGeq 100]
    | .error () => none) = some [(2, 100), (0, 1), (1, 100)] := by decide +kernel

end Tongrams
