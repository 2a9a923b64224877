import Verif.DArray
import Verif.PropsBitVector

/-!
# Property C11: `darray1` and `darray0` select
-/

namespace Tongrams
open BitVector

theorem rank_eq_count {f : Nat → Bool} {l : List Bool} (hf : ∀ i (h : i < l.length), f i = l[i]) :
    ∀ p, p ≤ l.length → Spec.rank f p = (l.take p).count true := by
  intro p
  induction p with
  | zero => intro _; simp
  | succ p ih =>
    intro h
    rw [Spec.rank_succ, ih (by omega), hf p (by omega), List.take_add_one, List.getElem?_eq_getElem (by omega),
      Option.toList_some, List.count_append, List.count_singleton]
    cases l[p] <;> rfl

theorem rank_eq_count_false {f : Nat → Bool} {l : List Bool} (hf : ∀ i (h : i < l.length), f i = !l[i]) :
    ∀ p, p ≤ l.length → Spec.rank f p = (l.take p).count false := by
  intro p
  induction p with
  | zero => intro _; simp
  | succ p ih =>
    intro h
    rw [Spec.rank_succ, ih (by omega), hf p (by omega), List.take_add_one, List.getElem?_eq_getElem (by omega),
      Option.toList_some, List.count_append, List.count_singleton]
    cases l[p] <;> rfl

/-- `darray1`: construction on any built bit vector succeeds, `num_positions` is the number of ones and
`select(i)` is the position `p` of the one that has exactly `i` ones before it. -/
theorem C11_darray1_select {b : BVBuilder} {l : List Bool} (h : BVHistory b l) :
    ∃ d, DArray.build id (BitVector.ofBuilder b) = some d ∧ d.positions = l.count true ∧
      ∀ p (hp : p < l.length), l[p] = true →
        d.select id (BitVector.ofBuilder b) ((l.take p).count true) = some p := by
  have hbit : ∀ i (hi : i < l.length), bitAt b.bits i = l[i] := by
    intro i hi; rw [h.bitAt, List.getD_eq_getElem?_getD, List.getElem?_eq_getElem hi]; rfl
  have hle := h.le
  have hsz : (ofBuilder b).size = l.length := h.size
  obtain ⟨d, e, hd⟩ := DArray.build_spec (getter_id (ofBuilder b).bits) (bv := ofBuilder b)
    (by rw [hsz]; exact hle)
  refine ⟨d, e, ?_, ?_⟩
  · rw [hd.positions, length_onesIn, hsz, show bitAt (ofBuilder b).bits = bitAt b.bits from rfl,
      rank_eq_count hbit _ (Nat.le_refl _), List.take_length]
  · intro p hp hlp
    exact DArray.select_spec (getter_id _) (by rw [hsz]; exact hle) hd (by rw [hsz]; exact hp)
      ⟨by rw [show bitAt (ofBuilder b).bits = bitAt b.bits from rfl, hbit p hp, hlp],
       by rw [show bitAt (ofBuilder b).bits = bitAt b.bits from rfl, rank_eq_count hbit _ (by omega)]⟩

/-- `darray0`: the same for the clear bits. -/
theorem C11_darray0_select {b : BVBuilder} {l : List Bool} (h : BVHistory b l) :
    ∃ d, DArray.build (fun w => ~~~w) (BitVector.ofBuilder b) = some d ∧ d.positions = l.count false ∧
      ∀ p (hp : p < l.length), l[p] = false →
        d.select (fun w => ~~~w) (BitVector.ofBuilder b) ((l.take p).count false) = some p := by
  have hbit : ∀ i (hi : i < l.length), (fun i => !bitAt (ofBuilder b).bits i) i = !l[i] := by
    intro i hi
    simp only [ofBuilder]
    rw [h.bitAt, List.getD_eq_getElem?_getD, List.getElem?_eq_getElem hi]; rfl
  have hle := h.le
  have hsz : (ofBuilder b).size = l.length := h.size
  obtain ⟨d, e, hd⟩ := DArray.build_spec (getter_not (ofBuilder b).bits) (bv := ofBuilder b)
    (by rw [hsz]; exact hle)
  refine ⟨d, e, ?_, ?_⟩
  · rw [hd.positions, length_onesIn, hsz, rank_eq_count_false hbit _ (Nat.le_refl _), List.take_length]
  · intro p hp hlp
    exact DArray.select_spec (getter_not _) (by rw [hsz]; exact hle) hd (by rw [hsz]; exact hp)
      ⟨by have := hbit p hp; simp only at this ⊢; rw [this, hlp]; rfl, rank_eq_count_false hbit _ (by omega)⟩

theorem BVHistory.exists_set {b : BVBuilder} {l : List Bool} (h : BVHistory b l) (pos : Nat) (v : Bool)
    (hp : pos < l.length) : ∃ b', BVHistory b' (l.set pos v) := by
  obtain ⟨b', e⟩ := Option.isSome_iff_exists.1 ((C05_operations_succeed h).2.1 pos v hp)
  exact ⟨b', BVHistory.set pos v h hp e⟩

theorem sparse_history (n a c : Nat) (ha : a < n) (hc : c < n) (hac : a ≠ c) :
    ∃ b l, BVHistory b l ∧ l.length = n ∧ l[a]? = some true ∧ l[c]? = some true := by
  obtain ⟨b1, h1⟩ := (BVHistory.new n false).exists_set a true (by simpa using ha)
  obtain ⟨b2, h2⟩ := h1.exists_set c true (by simpa using hc)
  refine ⟨b2, _, h2, by simp, ?_, ?_⟩
  · rw [List.getElem?_set_ne (Ne.symm hac), List.getElem?_set_self (by simpa using ha)]
  · rw [List.getElem?_set_self (by simpa using hc)]

/-- Non-vacuity: a dense block, and a block whose two ones are more than 2^16 apart (stored in the
overflow array). -/
example : ∃ b l, BVHistory b l ∧ l.length = 200 ∧ l[3]? = some true ∧ l[199]? = some true :=
  sparse_history 200 3 199 (by decide) (by decide) (by decide)
example : ∃ b l, BVHistory b l ∧ l.length = 70000 ∧ l[3]? = some true ∧ l[69999]? = some true :=
  sparse_history 70000 3 69999 (by decide) (by decide) (by decide)

end Tongrams
