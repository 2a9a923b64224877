import Verif.PropsPEF

/-!
# The linear scan of a uniform_pef_sequence

`begin()` returns an enumerator of its own; `next()` reads the values one by one (used by `print_stats` and by the
library's test of this sequence).
-/

set_option linter.unusedSectionVars false

namespace Tongrams
open BitVector

/-- An enumerator used for a linear scan: `m_first` beside the members of `PEnum`,
uniform_pef_sequence.hpp:198-243, 441-464. -/
structure PIter where
  e : PEnum
  first : Bool

namespace PEF
section Scan
variable (f : PEF) (junkU junkD : List W)

/-- `m_cur_base + m_partition_enum.next().second`, uniform_pef_sequence.hpp:393-394. -/
def partNext (e : PEnum) : Option (Nat × PEnum) :=
  (e.part.next f.data.bits junkD).map fun c => (e.curBase + c.value, { e with part := c })

/-- `slow_next()`, uniform_pef_sequence.hpp:400-411. -/
def slowNext (e : PEnum) : Option (Nat × PEnum) :=
  if e.position = f.size then (f.partNext junkD e).map fun r => (f.univ, r.2)
  else (f.switch junkU e (e.curPartition + 1)).bind fun e => f.partMove junkD e 0

/-- `begin()`, uniform_pef_sequence.hpp:467-472: a new enumerator (`init` sets `m_first`, line 210). -/
def begin : Option PIter := (f.init junkU junkD).map fun e => ⟨e, true⟩

/-- `next()`, uniform_pef_sequence.hpp:383-397. -/
def next (it : PIter) : Option (Nat × PIter) :=
  if it.first then (f.partMove junkD it.e 0).map fun r => (r.1, ⟨r.2, false⟩)
  else
    let e := { it.e with position := it.e.position + 1 }
    (if e.position < e.curEnd then f.partNext junkD e else f.slowNext junkU junkD e).map fun r => (r.1, ⟨r.2, false⟩)

/-- `k` calls of `next()`. -/
def takeNext : Nat → PIter → Option (List Nat)
  | 0, _ => some []
  | k + 1, it => (f.next junkU junkD it).bind fun r => (takeNext k r.2).map (r.1 :: ·)

end Scan

section
variable {f : PEF} {vals : List Nat} {ps so eo eb : Nat} {E : Nat → Nat}

theorem At.partNext (h : MHolds f vals ps so eo eb E) {junkD : List W} (hj : junkD ≠ []) {p : Nat} {e : PEnum}
    (a : At f vals ps so eo eb E p e) (hi : e.part.position < (pvals vals ps p).length) :
    ∃ v e', f.partNext junkD e = some (v, e') ∧ At f vals ps so eo eb E p e' ∧ e'.position = e.position ∧
      e'.part.position = e.part.position + 1 ∧
      (e.part.position + 1 < (pvals vals ps p).length → v = vals.getD (p * ps + (e.part.position + 1)) 0) := by
  obtain ⟨c, e1, i1, p1⟩ := (h.ctx p a.hp).next_spec hj a.part hi
  unfold PEF.partNext
  rw [e1, Option.map_some]
  refine ⟨_, _, rfl, ⟨a.hp, a.eoff, a.ebits, a.soff, a.cp, a.cb, a.ce, a.base, a.upper, i1⟩, rfl, p1, fun hlt => ?_⟩
  have := i1.value
  rw [p1, if_pos hlt] at this
  rw [a.base, this, pvals_back h hlt]

/-- The state of a scan that has returned the values up to position `i`. -/
def ScanAt (f : PEF) (vals : List Nat) (ps so eo eb : Nat) (E : Nat → Nat) (i : Nat) (it : PIter) : Prop :=
  it.first = false ∧ it.e.position = i ∧ ∃ p, At f vals ps so eo eb E p it.e ∧ p * ps + it.e.part.position = i ∧
    it.e.part.position < (pvals vals ps p).length

theorem MHolds.initAt (h : MHolds f vals ps so eo eb E) {junkU junkD : List W} (hu : junkU ≠ []) (hj : junkD ≠ []) :
    ∃ e, f.init junkU junkD = some e ∧ At f vals ps so eo eb E 0 e ∧ e.position = 0 := by
  obtain ⟨it, e1, p1⟩ := h.gamma
  have hP := h.parts
  unfold PEF.init
  rw [if_neg (by omega), e1, Option.bind_some]
  simp only
  have ht : (BitVec.ofNat 64 eb).toNat = eb := by rw [BitVec.toNat_ofNat, Nat.mod_eq_of_lt h.eb64]
  rw [ht, p1]
  unfold PEF.slowMove
  have hn := h.n0
  rw [if_neg (by rw [h.size]; show ¬ 0 = vals.length; omega)]
  obtain ⟨e2, s2, a2, q2, -⟩ := h.switch_spec hu (e :=
      { endpointsOff := eo, endpointBits := eb, seqOff := eo + eb * (f.partitions - 1), position := 0
        curPartition := 0, curBegin := 0, curEnd := 0, curBase := 0, curUpper := 0, part := CEF.Enum.new 0 0 0 })
      rfl rfl h.hso.symm (p := 0) (by omega)
  simp only [Nat.zero_div]
  rw [s2, Option.bind_some]
  obtain ⟨v, e', e3, a3, p3, -, -⟩ := At.partMove h hj a2 (i := e2.position - e2.curBegin) (by rw [q2]; show 0 - _ ≤ _; omega)
  rw [e3, Option.map_some]
  exact ⟨e', rfl, a3, by rw [p3, q2]⟩

theorem MHolds.first (h : MHolds f vals ps so eo eb E) {junkU junkD : List W} (hj : junkD ≠ []) {e : PEnum}
    (a : At f vals ps so eo eb E 0 e) (h0 : e.position = 0) :
    ∃ it, f.next junkU junkD ⟨e, true⟩ = some (vals.getD 0 0, it) ∧ ScanAt f vals ps so eo eb E 0 it := by
  obtain ⟨l0, l1⟩ := At.len_pos h a.hp
  obtain ⟨v, e', e1, a1, p1, q1, v1⟩ := At.partMove h hj a (Nat.zero_le _)
  refine ⟨⟨e', false⟩, ?_, rfl, by rw [p1, h0], 0, a1, by rw [q1]; omega, by rw [q1]; exact l0⟩
  unfold PEF.next
  rw [if_pos rfl, e1, Option.map_some, v1 l0, Nat.zero_mul]

theorem ScanAt.next (h : MHolds f vals ps so eo eb E) {junkU junkD : List W} (hu : junkU ≠ []) (hj : junkD ≠ []) {i : Nat} {it : PIter}
    (a : ScanAt f vals ps so eo eb E i it) (hi : i < vals.length) :
    ∃ it', f.next junkU junkD it = some (if i + 1 < vals.length then vals.getD (i + 1) 0 else f.univ, it') ∧
      (i + 1 < vals.length → ScanAt f vals ps so eo eb E (i + 1) it') := by
  obtain ⟨hf, hpos, p, ha, hpi, hlt⟩ := a
  obtain ⟨l0, l1⟩ := At.len_pos h ha.hp
  have ha' : At f vals ps so eo eb E p { it.e with position := it.e.position + 1 } :=
    ⟨ha.hp, ha.eoff, ha.ebits, ha.soff, ha.cp, ha.cb, ha.ce, ha.base, ha.upper, ha.part⟩
  unfold PEF.next
  rw [if_neg (by rw [hf]; decide)]
  simp only
  by_cases hc : i + 1 < min vals.length ((p + 1) * ps)
  · rw [if_pos (by rw [ha.ce, hpos]; exact hc)]
    obtain ⟨v, e', e1, a1, p1, q1, v1⟩ := At.partNext h hj ha' hlt
    rw [e1, Option.map_some]
    refine ⟨⟨e', false⟩, ?_, fun _ => ⟨rfl, by rw [p1, hpos], p, a1, by rw [q1]; simp only; omega, by rw [q1]; simp only; omega⟩⟩
    rw [if_pos (by omega), v1 (by simp only; omega)]
    simp only
    rw [← hpi, Nat.add_assoc]
  · rw [if_neg (by rw [ha.ce, hpos]; exact hc)]
    unfold PEF.slowNext
    by_cases hn : i + 1 = vals.length
    · rw [if_pos (by simp only; rw [hpos, h.size]; exact hn)]
      obtain ⟨v, e', e1, a1, p1, q1, v1⟩ := At.partNext h hj ha' hlt
      rw [e1, Option.map_some, Option.map_some, if_neg (by omega)]
      exact ⟨_, rfl, fun hh => absurd hh (by omega)⟩
    · rw [if_neg (by simp only; rw [hpos, h.size]; exact hn)]
      have hps := h.ps0
      have hp1 : p + 1 < f.partitions := by
        have h1 := h.parts_hi
        have h2 : i + 1 = (p + 1) * ps := by
          rw [Nat.succ_mul] at *; omega
        have h3 : (p + 1) * ps < f.partitions * ps := by omega
        exact Nat.lt_of_mul_lt_mul_right h3
      obtain ⟨e2, s2, a2, q2, -⟩ := h.switch_spec hu ha'.eoff ha'.ebits ha'.soff hp1
      rw [show ({ it.e with position := it.e.position + 1 } : PEnum).curPartition + 1 = p + 1 by simp only; rw [ha.cp]]
      rw [s2, Option.bind_some]
      obtain ⟨m0, m1⟩ := At.len_pos h hp1
      obtain ⟨v, e', e1, a1, p1, q1, v1⟩ := At.partMove h hj a2 (Nat.zero_le _)
      rw [e1, Option.map_some]
      have h2 : i + 1 = (p + 1) * ps := by
        rw [Nat.succ_mul] at *; omega
      refine ⟨⟨e', false⟩, ?_, fun _ => ⟨rfl, by rw [p1, q2]; simp only; rw [hpos], p + 1, a1, by rw [q1]; omega, by rw [q1]; exact m0⟩⟩
      rw [if_pos (by omega), v1 m0, h2, Nat.add_zero]

theorem ScanAt.take (h : MHolds f vals ps so eo eb E) {junkU junkD : List W} (hu : junkU ≠ []) (hj : junkD ≠ []) :
    ∀ (k i : Nat) (it : PIter), ScanAt f vals ps so eo eb E i it → i + k ≤ vals.length → i < vals.length →
      f.takeNext junkU junkD k it = some (((vals.drop (i + 1)).take k) ++ (if i + k = vals.length ∧ 0 < k then [f.univ] else [])) := by
  intro k
  induction k with
  | zero => intro i it _ _ _; rw [takeNext]; simp
  | succ k ih =>
    intro i it a hk hi
    obtain ⟨it', e1, a1⟩ := a.next h hu hj hi
    rw [takeNext, e1, Option.bind_some]
    by_cases hlast : i + 1 < vals.length
    · rw [if_pos hlast, ih (i + 1) it' (a1 hlast) (by omega) hlast, Option.map_some]
      have hd : vals.drop (i + 1) = vals.getD (i + 1) 0 :: vals.drop (i + 1 + 1) := by
        rw [List.drop_eq_getElem_cons hlast, List.getD_eq_getElem?_getD, List.getElem?_eq_getElem hlast]; rfl
      rw [hd, List.take_succ_cons, List.cons_append]
      have hc : (i + 1 + k = vals.length ∧ 0 < k) ↔ (i + (k + 1) = vals.length ∧ 0 < k + 1) := by omega
      simp only [hc]
    · have h1 : k = 0 := by omega
      subst h1
      rw [if_neg hlast, takeNext, Option.map_some, List.drop_eq_nil_of_le (by omega), List.take_nil, List.nil_append, if_pos (by omega)]

end

section
variable {f : PEF} {vals : List Nat} {ps off u cu : Nat}

theorem SInv.partNext (h : SHolds f vals ps off u cu) {junkD : List W} (hj : junkD ≠ []) {e : PEnum}
    (a : SInv f vals ps off u cu e) (hi : e.part.position < vals.length) :
    ∃ v e', f.partNext junkD e = some (v, e') ∧ SInv f vals ps off u cu e' ∧ e'.position = e.position ∧
      e'.part.position = e.part.position + 1 ∧ (e.part.position + 1 < vals.length → v = vals.getD (e.part.position + 1) 0) := by
  have hl := length_pvals_zero h.nps
  obtain ⟨c, e1, i1, p1⟩ := h.ctx.next_spec hj a.part (by rw [hl]; exact hi)
  unfold PEF.partNext
  rw [e1, Option.map_some]
  refine ⟨_, _, rfl, ⟨a.cp, a.cb, a.ce, a.base, a.upper, i1⟩, rfl, p1, fun hlt => ?_⟩
  have := i1.value
  rw [p1, if_pos (by omega)] at this
  rw [a.base, this, h.back hlt]

/-- The state of a scan that has returned the values up to position `i`, in a sequence of one partition. -/
def SScan (f : PEF) (vals : List Nat) (ps off u cu : Nat) (i : Nat) (it : PIter) : Prop :=
  it.first = false ∧ it.e.position = i ∧ SInv f vals ps off u cu it.e ∧ it.e.part.position = i

theorem SScan.next (h : SHolds f vals ps off u cu) {junkU junkD : List W} (hj : junkD ≠ []) {i : Nat} {it : PIter}
    (a : SScan f vals ps off u cu i it) (hi : i < vals.length) :
    ∃ it', f.next junkU junkD it = some (if i + 1 < vals.length then vals.getD (i + 1) 0 else f.univ, it') ∧
      (i + 1 < vals.length → SScan f vals ps off u cu (i + 1) it') := by
  obtain ⟨hf, hpos, ha, hp⟩ := a
  have ha' : SInv f vals ps off u cu { it.e with position := it.e.position + 1 } := ⟨ha.cp, ha.cb, ha.ce, ha.base, ha.upper, ha.part⟩
  obtain ⟨v, e', e1, a1, p1, q1, v1⟩ := SInv.partNext h hj ha' (by simp only; omega)
  unfold PEF.next
  rw [if_neg (by rw [hf]; decide)]
  simp only
  by_cases hc : i + 1 < vals.length
  · rw [if_pos (by rw [ha.ce, hpos]; exact hc), e1, Option.map_some, if_pos hc]
    refine ⟨⟨e', false⟩, ?_, fun _ => ⟨rfl, by rw [p1, hpos], a1, by rw [q1]; simp only; omega⟩⟩
    rw [v1 (by simp only; omega)]
    simp only
    rw [hp]
  · rw [if_neg (by rw [ha.ce, hpos]; exact hc), if_neg hc]
    unfold PEF.slowNext
    rw [if_pos (by simp only; rw [hpos, h.size]; omega), e1, Option.map_some, Option.map_some]
    exact ⟨_, rfl, fun hh => absurd hh hc⟩

theorem SScan.take (h : SHolds f vals ps off u cu) {junkU junkD : List W} (hj : junkD ≠ []) :
    ∀ (k i : Nat) (it : PIter), SScan f vals ps off u cu i it → i + k ≤ vals.length → i < vals.length →
      f.takeNext junkU junkD k it = some (((vals.drop (i + 1)).take k) ++ (if i + k = vals.length ∧ 0 < k then [f.univ] else [])) := by
  intro k
  induction k with
  | zero => intro i it _ _ _; rw [takeNext]; simp
  | succ k ih =>
    intro i it a hk hi
    obtain ⟨it', e1, a1⟩ := a.next h (junkU := junkU) hj hi
    rw [takeNext, e1, Option.bind_some]
    by_cases hlast : i + 1 < vals.length
    · rw [if_pos hlast, ih (i + 1) it' (a1 hlast) (by omega) hlast, Option.map_some]
      have hd : vals.drop (i + 1) = vals.getD (i + 1) 0 :: vals.drop (i + 1 + 1) := by
        rw [List.drop_eq_getElem_cons hlast, List.getD_eq_getElem?_getD, List.getElem?_eq_getElem hlast]; rfl
      rw [hd, List.take_succ_cons, List.cons_append]
      have hc : (i + 1 + k = vals.length ∧ 0 < k) ↔ (i + (k + 1) = vals.length ∧ 0 < k + 1) := by omega
      simp only [hc]
    · have h1 : k = 0 := by omega
      subst h1
      rw [if_neg hlast, takeNext, Option.map_some, List.drop_eq_nil_of_le (by omega), List.take_nil, List.nil_append, if_pos (by omega)]

theorem SHolds.initPos (h : SHolds f vals ps off u cu) (junkU junkD : List W) :
    ∃ e, f.init junkU junkD = some e ∧ SInv f vals ps off u cu e ∧ e.position = 0 := by
  unfold PEF.init
  rw [if_pos h.parts, h.init]
  refine ⟨_, rfl, ⟨rfl, rfl, rfl, rfl, rfl, ?_⟩, rfl⟩
  have := CEF.new_inv f.data.bits off off u (pvals vals ps 0)
  rw [length_pvals_zero h.nps] at this
  exact this

end

/-- A scan of a built sequence returns the first `k` values, and the universe if it goes one past the end. -/
theorem Built.scan {f : PEF} {vals : List Nat} {ps : Nat} (h : Built f vals ps) {junkU junkD : List W} (hu : junkU ≠ [])
    (hj : junkD ≠ []) : ∃ it, f.begin junkU junkD = some it ∧
      ∀ k, k ≤ vals.length + 1 → f.takeNext junkU junkD k it = some (vals.take k ++ if k = vals.length + 1 then [f.univ] else []) := by
  have fin : ∀ (k : Nat) (rest : Option (List Nat)), 0 < vals.length → k ≤ vals.length →
      rest = some (((vals.drop (0 + 1)).take k) ++ (if 0 + k = vals.length ∧ 0 < k then [f.univ] else [])) →
      rest.map (vals.getD 0 0 :: ·) = some (vals.take (k + 1) ++ if k + 1 = vals.length + 1 then [f.univ] else []) := by
    intro k rest h0 _ e
    rw [e, Option.map_some]
    have hd : vals = vals.getD 0 0 :: vals.drop 1 := by
      cases vals with
      | nil => simp at h0
      | cons a l => rfl
    have hc : (0 + k = vals.length ∧ 0 < k) ↔ (k + 1 = vals.length + 1) := by omega
    simp only [hc]
    conv => rhs; rw [show vals.take (k + 1) = (vals.getD 0 0 :: vals.drop 1).take (k + 1) from congrArg _ hd]
    rw [List.take_succ_cons, List.cons_append]
  rcases h with ⟨so, eo, eb, E, h⟩ | ⟨off, u, cu, h⟩
  · obtain ⟨e, e1, a1, p1⟩ := h.initAt hu hj
    refine ⟨⟨e, true⟩, by unfold PEF.begin; rw [e1, Option.map_some], ?_⟩
    intro k hk
    cases k with
    | zero => rw [takeNext]; simp
    | succ k =>
      obtain ⟨it, n1, s1⟩ := h.first hj (junkU := junkU) a1 p1
      rw [takeNext, n1, Option.bind_some]
      exact fin k _ h.n0 (by omega) (s1.take h hu hj k 0 it (by omega) h.n0)
  · obtain ⟨e, e1, a1, p1⟩ := h.initPos junkU junkD
    refine ⟨⟨e, true⟩, by unfold PEF.begin; rw [e1, Option.map_some], ?_⟩
    intro k hk
    cases k with
    | zero => rw [takeNext]; simp
    | succ k =>
      obtain ⟨v, e', m1, m2, m3, m4, m5⟩ := SInv.partMove h hj a1 (Nat.zero_le _)
      have n1 : f.next junkU junkD ⟨e, true⟩ = some (vals.getD 0 0, ⟨e', false⟩) := by
        unfold PEF.next
        rw [if_pos rfl, m1, Option.map_some, m5 h.n0]
      rw [takeNext, n1, Option.bind_some]
      exact fin k _ h.n0 (by omega) (SScan.take h (junkU := junkU) hj k 0 ⟨e', false⟩ ⟨rfl, by rw [m3, p1], m2, m4⟩ (by omega) h.n0)

end PEF

open PEF in
/-- C17, linear scan: `begin()` followed by `k` calls of `next()` returns the first `k` absolute values, for every `k`
up to the length of the sequence (and the last value again on one call more). -/
theorem C17_linear_scan_is_input {grams ptrs : List Nat} {order : Nat} (hne : grams ≠ [])
    (hp : Spec.Pointers ptrs grams.length) (hr : Spec.RangeSorted grams ptrs)
    (hb : ∀ v ∈ Spec.absVals grams ptrs [], v < 2 ^ 57) (hn : grams.length < 2 ^ 56)
    (hd : grams.length ≤ 2 ^ logPartOf order → (Spec.absVals grams ptrs []).getD (grams.length - 1) 0 < 2 ^ 31 - 1) :
    ∃ f, PEF.build grams ptrs order = some (.ok f) ∧
      ∀ (junkU junkD : List W), junkU ≠ [] → junkD ≠ [] → ∃ it, f.begin junkU junkD = some it ∧
        (∀ k, k ≤ grams.length → f.takeNext junkU junkD k it = some ((Spec.absVals grams ptrs []).take k)) ∧
        f.takeNext junkU junkD (grams.length + 1) it =
          some (Spec.absVals grams ptrs [] ++ [(Spec.absVals grams ptrs []).getD (grams.length - 1) 0]) := by
  obtain ⟨f, e1, -, b1, -⟩ := PEF.build_ok hne hp hr hb hn hd
  have hl := (FastEF.absVals_grouped hp).length
  refine ⟨f, e1, fun junkU junkD hu hj => ?_⟩
  obtain ⟨it, i1, i2⟩ := b1.scan hu hj
  refine ⟨it, i1, fun k hk => ?_, ?_⟩
  · rw [i2 k (by omega), if_neg (by omega), List.append_nil]
  · rw [i2 (grams.length + 1) (by omega), if_pos (by omega), List.take_of_length_le (by omega)]
    have hun : f.univ = (Spec.absVals grams ptrs []).getD ((Spec.absVals grams ptrs []).length - 1) 0 := by
      rcases b1 with ⟨so, eo, eb, E, h⟩ | ⟨off, u, cu, h⟩
      · exact h.univ
      · exact h.univ
    rw [hun, hl]

/-- Beside it: a sequence of two partitions, scanned to the end. -/
example : (Option.bind (PEF.build (List.range 70) [0, 70] 2) fun
    | .ok f => (f.begin [0] [0]).bind fun it => f.takeNext [0] [0] 70 it
    | .error () => none) = some (List.range 70) := by decide +kernel

end Tongrams
