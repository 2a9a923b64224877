import Verif.StTrie
import Verif.PropsPEF

/-!
# Count tries over `uniform_pef_sequence`

The count models of lm_types.hpp:62-82 that use `pef::uniform_pef_sequence` for the grams, for the prefix-summed ranks,
or for both.  Both keep the enumerator that answers queries as a member, so the trie is modelled with state
(`Verif.StTrie`).
-/

set_option linter.unusedSectionVars false

namespace Tongrams

/-- A `uniform_pef_sequence` object (uniform_pef_sequence.hpp:516-523): the serialised members, the enumerator `e`, and
the memory that follows its two arrays. -/
structure PefObj where
  seq : PEF
  en : PEnum
  junkU : List W
  junkD : List W

/-- `write(begin, universe, n, order)` with the initialisation of the enumerator (uniform_pef_sequence.hpp:52-153). -/
def PefObj.ofSeq (junkU junkD : List W) (f : PEF) : Option PefObj := (f.init junkU junkD).map fun e => ⟨f, e, junkU, junkD⟩

/-- `operator[](i)` (uniform_pef_sequence.hpp:155-157). -/
def PefObj.get (o : PefObj) (i : Nat) : Option (Nat × PefObj) :=
  (o.seq.get o.junkU o.junkD o.en i).map fun r => (r.1, { o with en := r.2 })

/-- `find(r, id, &pos)` (uniform_pef_sequence.hpp:159-191). -/
def PefObj.find (o : PefObj) (b e id : Nat) : Option (Nat × PefObj) :=
  (o.seq.find o.junkU o.junkD o.en b e id).map fun r => (r.1, { o with en := r.2 })

/-- `Grams = pef::uniform_pef_sequence` (lm_types.hpp:62-82); `junkU ord`, `junkD ord` is the memory after the arrays of
the sequence of order `ord`. -/
def GramsSt.pef (junkU junkD : Nat → List W) : GramsSt where
  S := PefObj
  build ord ids ptrs := Res.bind (PEF.build ids ptrs ord) fun f => Res.lift (PefObj.ofSeq (junkU ord) (junkD ord) f)
  find := PefObj.find

/-- `Ranks = prefix_summed_sequence<pef::uniform_pef_sequence>` (prefix_summed_sequence.hpp:12-27, lm_types.hpp:45-82):
the prefix sums are the values, the last one the universe.  `operator[]` subtracts two accesses; which of the two is made first is up to
the compiler: `swap`. -/
def RanksSt.pspef (swap : Bool) (junkU junkD : Nat → List W) : RanksSt where
  T := PefObj
  build ord ranks :=
    Res.bind (Res.lift (prefixSums ranks 0).getLast?) fun u =>
    Res.bind (PEF.write (prefixSums ranks 0) u ord) fun f => Res.lift (PefObj.ofSeq (junkU ord) (junkD ord) f)
  get o i :=
    if swap then
      (if i ≠ 0 then o.get (i - 1) else some (0, o)).bind fun b => (b.2.get i).map fun a => ((a.1 + 2 ^ 64 - b.1) % 2 ^ 64, a.2)
    else
      (o.get i).bind fun a => (if i ≠ 0 then a.2.get (i - 1) else some (0, a.2)).map fun b => ((a.1 + 2 ^ 64 - b.1) % 2 ^ 64, b.2)

/-! ## The sequence of grams -/

namespace PefTrie

/-- What the construction of one `uniform_pef_sequence` needs (C17, C18). -/
structure GramsOk (ord : Nat) (ids ptrs : List Nat) : Prop where
  ne : ids ≠ []
  pointers : Spec.Pointers ptrs ids.length
  strict : Spec.RangeStrict ids ptrs
  bound : ∀ v ∈ Spec.absVals ids ptrs [], v < 2 ^ 57
  len : ids.length < 2 ^ 56
  span : ids.length ≤ 2 ^ PEF.logPartOf ord → (Spec.absVals ids ptrs []).getD (ids.length - 1) 0 < 2 ^ 31 - 1
  nonzero : ids.length ≤ 2 ^ PEF.logPartOf ord → 2 ≤ ids.length → ids.getD 0 0 ≠ 0 → ∃ k, 0 < k ∧ k < ids.length ∧ ids.getD k 0 ≠ 0

/-- The id is at position `k` of a range. -/
def PresentIn (ids ptrs : List Nat) (b e id k : Nat) : Prop :=
  (∃ j, ptrs[j]? = some b ∧ ptrs[j + 1]? = some e) ∧ b ≤ k ∧ k < e ∧ ids.getD k 0 = id

/-- The id is not in the range, is not 0, and there is a greater one in the range. -/
def AbsentIn (ids ptrs : List Nat) (b e id : Nat) : Prop :=
  (∃ j, ptrs[j]? = some b ∧ ptrs[j + 1]? = some e) ∧ id ≠ 0 ∧ (∀ k, b ≤ k → k < e → ids.getD k 0 ≠ id) ∧ ∃ k, b ≤ k ∧ k < e ∧ id < ids.getD k 0

open Classical in
/-- A proof device: a sequence that answers only the searches for ids that are in the range, and for other ids that are not 0 and smaller than
one in the range. -/
noncomputable def ideal : GramsImpl where
  build ord ids ptrs :=
    if GramsOk ord ids ptrs then
      some (.ok fun b e id => if h : ∃ k, PresentIn ids ptrs b e id k then some h.choose else if AbsentIn ids ptrs b e id then some NF else none)
    else none

theorem ideal_exact {ex : Nat → Nat → Prop} {ord : Nat} {ids ptrs : List Nat} (h : GramsOk ord ids ptrs)
    (hex : ∀ j b e id, ptrs[j]? = some b → ptrs[j + 1]? = some e → ex j id → id ≠ 0 ∧ ∃ k, b ≤ k ∧ k < e ∧ id < ids.getD k 0) :
    ideal.Exact ex ord ids ptrs := by
  refine ⟨_, if_pos h, fun j b e hb he hlt id hid => ⟨?_, fun hf hno => ?_⟩⟩
  · rintro ⟨i, i1, i2, i3⟩
    have hx : ∃ k, PresentIn ids ptrs b e id k := ⟨i, ⟨j, hb, he⟩, i1, i2, i3⟩
    obtain ⟨-, c1, c2, c3⟩ := hx.choose_spec
    exact ⟨hx.choose, dif_pos hx, c1, c2, c3⟩
  · obtain ⟨h1, h2⟩ := hex j b e id hb he hf
    exact (dif_neg (fun ⟨k, _, k1, k2, k3⟩ => hno k k1 k2 k3)).trans (if_pos ⟨⟨j, hb, he⟩, h1, hno, h2⟩)

/-- In a single partition, if all the values are equal then they are zero. -/
theorem zero_of_equal {ord : Nat} {ids ptrs : List Nat} (h : GramsOk ord ids ptrs) :
    (Spec.absVals ids ptrs []).length ≤ 2 ^ PEF.logPartOf ord → 2 ≤ (Spec.absVals ids ptrs []).length →
    (Spec.absVals ids ptrs []).getD ((Spec.absVals ids ptrs []).length - 1) 0 = (Spec.absVals ids ptrs []).getD 0 0 →
    (Spec.absVals ids ptrs []).getD 0 0 = 0 := by
  have hg := FastEF.absVals_grouped h.pointers
  have hs := FastEF.grouped_sorted h.pointers hg h.strict.sorted
  have hl := hg.length
  rw [hl]
  intro hle h2' hall
  apply Classical.byContradiction
  intro hz
  have h00 : (Spec.absVals ids ptrs []).getD 0 0 = ids.getD 0 0 := by
    obtain ⟨j', b', e', g1, g2, g3, g4⟩ := FastEF.exists_range h.pointers (show 0 < ids.length by omega)
    rw [hg.val j' b' e' g1 g2 0 g3 g4, show b' = 0 by omega]
    unfold Spec.before; rw [if_pos rfl]; omega
  obtain ⟨m, m0, m1, m2⟩ := h.nonzero hle h2' (by omega)
  obtain ⟨j', b', e', g1, g2, g3, g4⟩ := FastEF.exists_range h.pointers m1
  have hv := hg.val j' b' e' g1 g2 m g3 g4
  have ha := EF.sorted_getD hs (show m ≤ ids.length - 1 by omega) (by omega)
  by_cases hb' : b' = 0
  · subst hb'
    have := h.strict j' 0 e' g1 g2 0 m (by omega) m0 g4
    unfold Spec.before at hv; rw [if_pos rfl] at hv
    omega
  · unfold Spec.before at hv; rw [if_neg hb'] at hv
    have := EF.sorted_getD hs (Nat.zero_le (b' - 1)) (by omega)
    omega

/-- A search for a present id in a state reached by searches. -/
theorem find_present {ord : Nat} {ids ptrs : List Nat} (h : GramsOk ord ids ptrs) {f : PEF} {e : PEnum}
    (hf : PEF.Fresh f (Spec.absVals ids ptrs []) (2 ^ PEF.logPartOf ord) e) {junkU junkD : List W} (hu : junkU ≠ []) (hj : junkD ≠ [])
    {b en id k : Nat} (hk : PresentIn ids ptrs b en id k) :
    ∃ e', f.find junkU junkD e b en id = some (k, e') ∧ PEF.Fresh f (Spec.absVals ids ptrs []) (2 ^ PEF.logPartOf ord) e' := by
  obtain ⟨⟨j, h1, h2⟩, k1, k2, rfl⟩ := hk
  have hg := FastEF.absVals_grouped h.pointers
  have hp := PEF.presentAt_of h.pointers h.strict h1 h2 k1 k2
  have hlt : Spec.before (Spec.absVals ids ptrs []) b + ids.getD k 0 < NF := by
    have hkl : k < (Spec.absVals ids ptrs []).length := by have := hp.hi; have := hp.len; omega
    have := h.bound _ (EF.getD_mem hkl)
    have := hp.val
    unfold NF; omega
  have hok : (PEF.Op.find b en (ids.getD k 0)).Ok (Spec.absVals ids ptrs []) (2 ^ PEF.logPartOf ord) :=
    PEF.SearchOk.ok h.pointers h.strict ⟨j, h1, h2, hlt, Or.inr (Or.inr (Or.inr ⟨k, k1, k2, Nat.le_refl _⟩))⟩
  obtain ⟨r, e', e1, st⟩ := hf.good.step hu hj hok
  have hr := st.present b en _ k rfl hp (zero_of_equal h) (Or.inr (Or.inr hf))
  subst hr
  exact ⟨e', e1, st.fresh hf ⟨_, _, _, rfl⟩⟩

/-- A search for an absent id that is smaller than one in the range. -/
theorem find_absent {ord : Nat} {ids ptrs : List Nat} (h : GramsOk ord ids ptrs) {f : PEF} {e : PEnum}
    (hf : PEF.Fresh f (Spec.absVals ids ptrs []) (2 ^ PEF.logPartOf ord) e) {junkU junkD : List W} (hu : junkU ≠ []) (hj : junkD ≠ [])
    {b en id : Nat} (ha : AbsentIn ids ptrs b en id) :
    ∃ e', f.find junkU junkD e b en id = some (NF, e') ∧ PEF.Fresh f (Spec.absVals ids ptrs []) (2 ^ PEF.logPartOf ord) e' := by
  obtain ⟨⟨j, h1, h2⟩, hid, hno, k, k1, k2, k3⟩ := ha
  have hg := FastEF.absVals_grouped h.pointers
  have hs := FastEF.grouped_sorted h.pointers hg h.strict.sorted
  have hl := hg.length
  have hen := h.pointers.range_le h2
  have hval := hg.val j b en h1 h2 k k1 k2
  have hbd := h.bound _ (EF.getD_mem (show k < (Spec.absVals ids ptrs []).length by omega))
  have hok : (PEF.Op.find b en id).Ok (Spec.absVals ids ptrs []) (2 ^ PEF.logPartOf ord) :=
    PEF.SearchOk.ok h.pointers h.strict ⟨j, h1, h2, by unfold NF; omega, Or.inr (Or.inr (Or.inr ⟨k, k1, k2, by omega⟩))⟩
  obtain ⟨r, e', e1, st⟩ := hf.good.step hu hj hok
  have hr := st.answer
  simp only [PEF.Op.Answer] at hr
  rw [if_neg (by omega), if_neg hid] at hr
  have hrn : r = NF := by
    rcases hr with hr | ⟨r1, r2, r3⟩ | ⟨-, r2, r3, r4⟩
    · exact hr
    · exfalso
      rcases Nat.lt_or_ge r en with g | g
      · apply hno r r1 g
        have := hg.val j b en h1 h2 r r1 g
        omega
      · have := EF.sorted_getD hs (show k ≤ r by omega) (by omega)
        omega
    · exfalso
      have hz := zero_of_equal h r3 r2 r4
      have := EF.sorted_getD hs (show k ≤ (Spec.absVals ids ptrs []).length - 1 by omega) (by omega)
      omega
  rw [hrn] at e1
  exact ⟨e', e1, st.fresh hf ⟨_, _, _, rfl⟩⟩

/-- The answers of the ideal sequence (a proof device). -/
noncomputable def answers (ids ptrs : List Nat) (b e id : Nat) : Option Nat :=
  open Classical in
  if h : ∃ k, PresentIn ids ptrs b e id k then some h.choose else if AbsentIn ids ptrs b e id then some NF else none

theorem pef_sim {junkU junkD : Nat → List W} (hu : ∀ k, junkU k ≠ []) (hj : ∀ k, junkD k ≠ []) {ord : Nat} {ids ptrs : List Nat}
    (h : GramsOk ord ids ptrs) {f : PEF} {e : PEnum} (he : PEF.Fresh f (Spec.absVals ids ptrs []) (2 ^ PEF.logPartOf ord) e) :
    (GramsSt.pef junkU junkD).Sim (answers ids ptrs) (some ⟨f, e, junkU ord, junkD ord⟩) := by
  refine ⟨fun o => ∃ e, o = some ⟨f, e, junkU ord, junkD ord⟩ ∧ PEF.Fresh f (Spec.absVals ids ptrs []) (2 ^ PEF.logPartOf ord) e, ⟨e, rfl, he⟩, ?_⟩
  rintro o b en id r ⟨e, rfl, hf⟩ hr
  by_cases hx : ∃ k, PresentIn ids ptrs b en id k
  · have hr' : some hx.choose = some r := (dif_pos hx).symm.trans hr
    have hrk := hx.choose_spec
    rw [Option.some.inj hr'] at hrk
    obtain ⟨e', e3, e4⟩ := find_present h hf (hu ord) (hj ord) hrk
    exact ⟨_, ⟨f, e', junkU ord, junkD ord⟩, rfl, by simp [GramsSt.pef, PefObj.find, e3], e', rfl, e4⟩
  · have hr' := (dif_neg hx).symm.trans hr
    by_cases ha : AbsentIn ids ptrs b en id
    · have hr2 : some NF = some r := (if_pos ha).symm.trans hr'
      cases hr2
      obtain ⟨e', e3, e4⟩ := find_absent h hf (hu ord) (hj ord) ha
      exact ⟨_, ⟨f, e', junkU ord, junkD ord⟩, rfl, by simp [GramsSt.pef, PefObj.find, e3], e', rfl, e4⟩
    · have hr2 : none = some r := (if_neg ha).symm.trans hr'
      cases hr2

theorem pef_implements {junkU junkD : Nat → List W} (hu : ∀ k, junkU k ≠ []) (hj : ∀ k, junkD k ≠ []) (ord : Nat) (ids ptrs : List Nat) :
    (GramsSt.pef junkU junkD).Implements ideal ord ids ptrs := by
  intro g hg
  by_cases h : GramsOk ord ids ptrs
  · have hg' : ideal.build ord ids ptrs = some (.ok (answers ids ptrs)) := if_pos h
    rw [hg'] at hg
    obtain ⟨f, f1, -, f3, -⟩ := PEF.build_ok (order := ord) h.ne h.pointers h.strict.sorted h.bound h.len h.span
    obtain ⟨e, e1, e2⟩ := f3.init (hu ord) (hj ord)
    have hgi := Except.ok.inj (Option.some.inj hg)
    refine ⟨⟨f, e, junkU ord, junkD ord⟩, ?_, by rw [← hgi]; exact pef_sim hu hj h e2⟩
    show Res.bind (PEF.build ids ptrs ord) _ = _
    rw [f1, Res.bind_ok, PefObj.ofSeq, e1]; rfl
  · have hg' : ideal.build ord ids ptrs = none := if_neg h
    rw [hg'] at hg; cases hg

/-! ## The ranks -/

/-- What the construction of the prefix-summed ranks needs. -/
structure RanksOk (ord : Nat) (ranks : List Nat) : Prop where
  ne : ranks ≠ []
  sum : ranks.sum < 2 ^ 57
  len : ranks.length < 2 ^ 56
  span : ranks.length ≤ 2 ^ PEF.logPartOf ord → ranks.sum < 2 ^ 31 - 1

open Classical in
/-- A proof device: ranks that are read from the list itself. -/
noncomputable def idealRanks : RanksImpl where
  build ord ranks := if RanksOk ord ranks then some (.ok fun i => ranks[i]?) else none

theorem idealRanks_exact {ord : Nat} {ranks : List Nat} (h : RanksOk ord ranks) : idealRanks.Exact ord ranks :=
  ⟨_, if_pos h, fun _ _ hr => hr⟩

theorem get_access {f : PEF} {vals : List Nat} {ps : Nat} {e : PEnum} (h : PEF.Good f vals ps e) {junkU junkD : List W} (hu : junkU ≠ [])
    (hj : junkD ≠ []) {i : Nat} (hi : i < vals.length) :
    ∃ e', f.get junkU junkD e i = some (vals.getD i 0, e') ∧ PEF.Good f vals ps e' := by
  obtain ⟨r, e', e1, st⟩ := h.step hu hj (op := .access i) hi
  have := st.answer
  simp only [PEF.Op.Answer] at this
  subst this
  exact ⟨e', e1, st.good⟩

theorem pspef_built {ord : Nat} {ranks : List Nat} (h : RanksOk ord ranks) :
    ∃ f, (prefixSums ranks 0).getLast? = some ((prefixSums ranks 0).getD ((prefixSums ranks 0).length - 1) 0) ∧
      PEF.write (prefixSums ranks 0) ((prefixSums ranks 0).getD ((prefixSums ranks 0).length - 1) 0) ord = some (.ok f) ∧ f.size = ranks.length ∧
      PEF.Built f (prefixSums ranks 0) (2 ^ PEF.logPartOf ord) ∧ PEF.Sized f (prefixSums ranks 0) ∧ (∀ v ∈ prefixSums ranks 0, v < 2 ^ 57) ∧
      (prefixSums ranks 0).length = ranks.length := by
  have hsum := h.sum
  obtain ⟨l1, l2⟩ := prefixSums_spec ranks 0 (by omega)
  simp only [Nat.zero_add] at l2
  have hpos : 0 < ranks.length := List.length_pos_iff.2 h.ne
  have hlastv : (prefixSums ranks 0).getD ((prefixSums ranks 0).length - 1) 0 = ranks.sum := by
    rw [l1, l2 _ (by omega), show ranks.length - 1 + 1 = ranks.length by omega, List.take_length]
  have hge : ∀ i (hi : i < (prefixSums ranks 0).length), (prefixSums ranks 0)[i] = (ranks.take (i + 1)).sum := by
    intro i hi
    have := l2 i (by omega)
    rwa [List.getD_eq_getElem?_getD, List.getElem?_eq_getElem hi] at this
  have hsorted : Spec.Sorted (prefixSums ranks 0) := by
    refine List.pairwise_iff_getElem.2 fun i j hi hj hij => ?_
    rw [hge i hi, hge j hj]
    exact sum_take_mono ranks (by omega)
  have hlast : (prefixSums ranks 0).getLast? = some ((prefixSums ranks 0).getD ((prefixSums ranks 0).length - 1) 0) := by
    rw [List.getLast?_eq_getElem?, List.getD_eq_getElem?_getD, List.getElem?_eq_getElem (by omega)]; rfl
  have hbd : ∀ v ∈ prefixSums ranks 0, v < 2 ^ 57 := by
    intro v hv
    obtain ⟨i, hi, rfl⟩ := List.mem_iff_getElem.1 hv
    rw [hge i hi]
    have := sum_take_le ranks (i + 1); omega
  obtain ⟨f, f1, f2, f3, f4⟩ := PEF.write_ok (order := ord) hsorted hbd (by omega) (by rw [l1]; exact h.len) (by
    rw [hlastv, l1]
    intro hle
    have := h.span hle; omega)
  exact ⟨f, hlast, f1, by omega, f3, f4, hbd, l1⟩

theorem pspef_sim {swap : Bool} {junkU junkD : Nat → List W} (hu : ∀ k, junkU k ≠ []) (hj : ∀ k, junkD k ≠ []) {ord : Nat}
    {ranks : List Nat} (h : RanksOk ord ranks) {f : PEF} {e : PEnum} (he : PEF.Good f (prefixSums ranks 0) (2 ^ PEF.logPartOf ord) e) :
    (RanksSt.pspef swap junkU junkD).Sim (fun i => ranks[i]?) (some ⟨f, e, junkU ord, junkD ord⟩) := by
  have hsum := h.sum
  obtain ⟨l1, l2⟩ := prefixSums_spec ranks 0 (by omega)
  simp only [Nat.zero_add] at l2
  refine ⟨fun o => ∃ e, o = some ⟨f, e, junkU ord, junkD ord⟩ ∧ PEF.Good f (prefixSums ranks 0) (2 ^ PEF.logPartOf ord) e,
    ⟨e, rfl, he⟩, ?_⟩
  rintro o i r ⟨e, rfl, hf⟩ hr
  obtain ⟨hi, rfl⟩ := List.getElem?_eq_some_iff.1 (show ranks[i]? = some r from hr)
  have hsub : ((prefixSums ranks 0).getD i 0 + 2 ^ 64 - (if i ≠ 0 then (prefixSums ranks 0).getD (i - 1) 0 else 0)) % 2 ^ 64 = ranks[i] := by
    have hle := sum_take_le ranks (i + 1)
    rw [l2 i hi]
    rw [sum_take_succ ranks hi] at hle ⊢
    by_cases h0 : i = 0
    · subst h0
      simp only [ne_eq, not_true_eq_false, if_false]
      rw [Nat.sub_zero, Nat.add_mod_right, Nat.mod_eq_of_lt (by omega)]; simp
    · rw [if_pos h0, l2 (i - 1) (by omega), show i - 1 + 1 = i by omega]
      rw [show (ranks.take i).sum + ranks[i] + 2 ^ 64 - (ranks.take i).sum = ranks[i] + 2 ^ 64 by omega, Nat.add_mod_right,
        Nat.mod_eq_of_lt (by omega)]
  cases swap with
  | false =>
    obtain ⟨ea, a1, a2⟩ := get_access hf (hu ord) (hj ord) (i := i) (by omega)
    by_cases h0 : i = 0
    · refine ⟨_, ⟨f, ea, junkU ord, junkD ord⟩, rfl, ?_, ea, rfl, a2⟩
      subst h0
      simp only [ne_eq, not_true_eq_false, if_false] at hsub
      simp only [RanksSt.pspef, PefObj.get, a1, Option.map_some, Option.bind_some, ne_eq, not_true_eq_false, if_false, hsub]
      rfl
    · obtain ⟨eb, b1, b2⟩ := get_access a2 (hu ord) (hj ord) (i := i - 1) (by omega)
      refine ⟨_, ⟨f, eb, junkU ord, junkD ord⟩, rfl, ?_, eb, rfl, b2⟩
      rw [if_pos h0] at hsub
      simp only [RanksSt.pspef, PefObj.get, a1, b1, Option.map_some, Option.bind_some, h0, ne_eq, not_false_eq_true, if_true, hsub]
      rfl
  | true =>
    by_cases h0 : i = 0
    · obtain ⟨ea, a1, a2⟩ := get_access hf (hu ord) (hj ord) (i := i) (by omega)
      refine ⟨_, ⟨f, ea, junkU ord, junkD ord⟩, rfl, ?_, ea, rfl, a2⟩
      subst h0
      simp only [ne_eq, not_true_eq_false, if_false] at hsub
      simp only [RanksSt.pspef, PefObj.get, a1, Option.map_some, Option.bind_some, ne_eq, not_true_eq_false, if_false, if_true, hsub]
    · obtain ⟨eb, b1, b2⟩ := get_access hf (hu ord) (hj ord) (i := i - 1) (by omega)
      obtain ⟨ea, a1, a2⟩ := get_access b2 (hu ord) (hj ord) (i := i) (by omega)
      refine ⟨_, ⟨f, ea, junkU ord, junkD ord⟩, rfl, ?_, ea, rfl, a2⟩
      rw [if_pos h0] at hsub
      simp only [RanksSt.pspef, PefObj.get, a1, b1, Option.map_some, Option.bind_some, h0, ne_eq, not_false_eq_true, if_true, hsub]

theorem pspef_implements {swap : Bool} {junkU junkD : Nat → List W} (hu : ∀ k, junkU k ≠ []) (hj : ∀ k, junkD k ≠ []) (ord : Nat)
    (ranks : List Nat) : (RanksSt.pspef swap junkU junkD).Implements idealRanks ord ranks := by
  intro g hg
  by_cases h : RanksOk ord ranks
  · have hg' : idealRanks.build ord ranks = _ := if_pos h
    rw [hg'] at hg
    have hgi := Except.ok.inj (Option.some.inj hg)
    obtain ⟨f, hlast, f1, -, f3, -⟩ := pspef_built h
    obtain ⟨e, e1, e2⟩ := f3.init (hu ord) (hj ord)
    refine ⟨⟨f, e, junkU ord, junkD ord⟩, ?_, ?_⟩
    · show Res.bind (Res.lift _) _ = _
      rw [hlast, Res.lift_some, Res.bind_ok, f1, Res.bind_ok, PefObj.ofSeq, e1]; rfl
    · rw [← hgi]; exact pspef_sim hu hj h e2.good
  · have hg' : idealRanks.build ord ranks = none := if_neg h
    rw [hg'] at hg; cases hg

/-! ## The levels of a trie -/

section
variable {K : Type} [DecidableEq K]

/-- Stored ids strictly increase among siblings. -/
theorem rangeStrict {U : List K} {levels : List (List (List K))} {ro : Nat} (hT : Spec.TrieData U levels ro) {k : Nat}
    {prev curr lr : List (List K)} (hp : levels[k]? = some prev)
    (hc : levels[k + 1]? = some curr) (hlr : ro ≠ 0 → ro < k + 1 → levels[ro]? = some lr) :
    Spec.RangeStrict (curr.map (Spec.storedId U lr ro)) (Spec.childPtrs List.dropLast curr prev) := by
  obtain ⟨ptrs, e1, e2, e3, e4, e5⟩ :=
    C38_pointers_delimit_children (pat := List.dropLast) (Trie.lex_irrefl U) (Trie.lex_trans U) (hT.sorted k prev hp)
      (Trie.patterns_sorted (hT.len _ curr hc) (hT.words _ curr hc) (hT.sorted _ curr hc)) (hT.prefix_closed k prev curr hp hc)
  subst e2
  intro j b e hb he i i' h1 h2 h3
  have hj : j < prev.length := by
    have := (List.getElem?_eq_some_iff.1 he).1; omega
  have hen : e ≤ curr.length := e4.range_le he
  have hi : i < curr.length := by omega
  have hi1 : i' < curr.length := by omega
  have g1 := (e5 j b e _ hb he (List.getElem?_eq_getElem hj) i _ (List.getElem?_eq_getElem hi)).1 ⟨by omega, by omega⟩
  have g2 := (e5 j b e _ hb he (List.getElem?_eq_getElem hj) i' _ (List.getElem?_eq_getElem hi1)).1 ⟨by omega, by omega⟩
  have hlt := List.pairwise_iff_getElem.1 (hT.sorted _ curr hc) i i' hi hi1 (by omega)
  have m1 := List.getElem_mem hi
  have m2 := List.getElem_mem hi1
  rw [List.getD_eq_getElem?_getD, List.getD_eq_getElem?_getD, List.getElem?_map, List.getElem?_map, List.getElem?_eq_getElem hi,
    List.getElem?_eq_getElem hi1]
  show Spec.storedId U lr ro curr[i] < Spec.storedId U lr ro curr[i']
  rcases Trie.split_lt (by rw [hT.len _ curr hc _ m1, hT.len _ curr hc _ m2])
    (by intro e; have := hT.len _ curr hc _ m1; rw [e] at this; simp at this) (hT.words _ curr hc _ m1) (hT.words _ curr hc _ m2) hlt
    with h | ⟨h1, x, y, h2, h3, h4⟩
  · rw [g1, g2] at h; exact absurd h (Trie.lex_irrefl U _)
  · rw [← h1] at h3
    rw [h2] at m1 ⊢
    rw [h3] at m2 ⊢
    exact Trie.storedId_lt hT hc hlr m1 m2 h4

end

end PefTrie

/-- What `uniform_pef_sequence` needs beyond `Spec.CountFiles`: an order of at most one partition (64 bigrams, 128
n-grams above) has ids that add up to less than 2^31-1; and if it has two n-grams or more, the first of which is not stored
with id 0, then another one is not either (`C49_equal_values_wrong_count_defect`). -/
structure Spec.PefFiles {K : Type} [DecidableEq K] (U : List K) (files : List (List (List K × Nat))) (ro : Nat) : Prop where
  span : ∀ f ∈ files, f.length ≤ 128 → f.length * U.length < 2 ^ 31 - 1
  nonzero : ∀ (k : Nat) (f : List (List K × Nat)), files[k + 1]? = some f → f.length ≤ (if k = 0 then 64 else 128) → 2 ≤ f.length →
    (∃ q ∈ (f.map (·.1)).head?, Spec.storedId U ((files.map (·.map (·.1))).getD ro []) ro q ≠ 0) →
    ∃ q ∈ (f.map (·.1)).tail, Spec.storedId U ((files.map (·.map (·.1))).getD ro []) ro q ≠ 0

/-- The ways of storing the ranks of the counts (lm_types.hpp:37-82); for the prefix-summed `uniform_pef_sequence`, the
order of evaluation of its two accesses. -/
inductive PefRanks | ic | psef | pspef (swap : Bool)

/-- The implementation it selects. -/
def PefRanks.impl (junkU junkD : Nat → List W) : PefRanks → RanksSt
  | .ic => RanksImpl.ic.st
  | .psef => RanksImpl.psef.st
  | .pspef s => RanksSt.pspef s junkU junkD

/-- How long the files may be for these ranks. -/
def PefRanks.maxLines : PefRanks → Nat
  | .ic => 2 ^ 56
  | .psef => 2 ^ 32
  | .pspef _ => 2 ^ 28

namespace PefTrie
section
variable {K : Type} [DecidableEq K]

/-- The ideal ranks (a proof device). -/
noncomputable def idealOf : PefRanks → RanksImpl
  | .ic => RanksImpl.ic
  | .psef => RanksImpl.psef
  | .pspef _ => idealRanks

theorem ranks_implements {junkU junkD : Nat → List W} (hu : ∀ k, junkU k ≠ []) (hj : ∀ k, junkD k ≠ []) (pr : PefRanks) (ord : Nat)
    (ranks : List Nat) : (pr.impl junkU junkD).Implements (idealOf pr) ord ranks := by
  cases pr with
  | ic => exact RanksImpl.st_implements _ _ _
  | psef => exact RanksImpl.st_implements _ _ _
  | pspef s => exact pspef_implements hu hj _ _

theorem logPart_le (ord : Nat) : 2 ^ PEF.logPartOf ord ≤ 128 := by
  unfold PEF.logPartOf; split <;> decide

theorem ranks_exact {U : List K} {files : List (List (List K × Nat))} {ro : Nat} (h : Spec.CountFiles U files ro) (pr : PefRanks)
    (hpr : ∀ f ∈ files, f.length < pr.maxLines) (k : Nat) (f : List (List K × Nat)) (rs : List Nat) (hf : files[k]? = some f)
    (hl : rs.length = f.length) (hr : ∀ r ∈ rs, r < f.length) : (idealOf pr).Exact (k + 1) rs := by
  cases pr with
  | ic => exact TrieCount.ranks_ok h .ic (by simp) k f rs hf hl hr
  | psef => exact TrieCount.ranks_ok h .psef (fun _ => hpr) k f rs hf hl hr
  | pspef s =>
    have hfm := List.mem_of_getElem? hf
    have h28 := hpr f hfm
    simp only [PefRanks.maxLines] at h28
    have hs := TrieCount.sum_le (l := rs) (m := f.length) fun x hx => Nat.le_of_lt (hr x hx)
    refine idealRanks_exact ⟨?_, ?_, by omega, ?_⟩
    · have hne := h.data.nonempty k (f.map (·.1)) (by rw [List.getElem?_map, hf]; rfl)
      rintro rfl
      apply hne
      rw [List.map_eq_nil_iff]
      exact List.length_eq_zero_iff.1 hl.symm
    · rw [hl] at hs
      have h2 : f.length * f.length ≤ 2 ^ 28 * 2 ^ 28 := Nat.mul_le_mul (by omega) (by omega)
      omega
    · intro hle
      have hlp := logPart_le (k + 1)
      rw [hl] at hs hle
      have h2 : f.length * f.length ≤ 128 * 128 := Nat.mul_le_mul (by omega) (by omega)
      omega

/-- The id is not 0, and `p` is extended by a word that is stored with a greater id. -/
def ClearAt (U : List K) (levels : List (List (List K))) (ro : Nat) (p : List K) (id : Nat) : Prop :=
  id ≠ 0 ∧ ∃ q ∈ levels.getD p.length [], q.dropLast = p ∧ id < Spec.storedId U (levels.getD ro []) ro q

theorem grams_exact {U : List K} {files : List (List (List K × Nat))} {ro : Nat} (h : Spec.CountFiles U files ro)
    (hp : Spec.PefFiles U files ro) (k : Nat) (prev curr : List (List K))
    (hpv : (files.map (·.map (·.1)))[k]? = some prev) (hc : (files.map (·.map (·.1)))[k + 1]? = some curr) :
    ideal.Exact (Trie.exAt (ClearAt U (files.map (·.map (·.1))) ro) prev) (k + 2) (curr.map (Spec.storedId U ((files.map (·.map (·.1))).getD ro []) ro)) (Spec.childPtrs List.dropLast curr prev) := by
  have hlr : ro ≠ 0 → ro < k + 1 → (files.map (·.map (·.1)))[ro]? = some ((files.map (·.map (·.1))).getD ro []) := by
    intro _ hlt
    have hkl := (List.getElem?_eq_some_iff.1 hc).1
    have : (files.map (·.map (·.1)))[ro]? = some ((files.map (·.map (·.1)))[ro]'(by omega)) := List.getElem?_eq_getElem _
    rw [Trie.getD_eq this]; exact this
  obtain ⟨ptrs, -, e2, -, e4, e5⟩ :=
    C38_pointers_delimit_children (pat := List.dropLast) (Trie.lex_irrefl U) (Trie.lex_trans U) (h.data.sorted k prev hpv)
      (Trie.patterns_sorted (h.data.len _ curr hc) (h.data.words _ curr hc) (h.data.sorted _ curr hc)) (h.data.prefix_closed k prev curr hpv hc)
  subst e2
  have hst := rangeStrict h.data hpv hc hlr
  have hc' := hc
  rw [List.getElem?_map] at hc'
  obtain ⟨g, hg, rfl⟩ := Option.map_eq_some_iff.1 hc'
  have hgm := List.mem_of_getElem? hg
  have hsz := h.size g hgm
  have hsl := TrieCount.len_of_size h hgm
  have hM : ∀ v ∈ (g.map (·.1)).map (Spec.storedId U ((files.map (·.map (·.1))).getD ro []) ro), v ≤ U.length := by
    intro v hv
    obtain ⟨q, hq, rfl⟩ := List.mem_map.1 hv
    exact Nat.le_of_lt (Trie.storedId_bound h.data hc hlr hq)
  have e4' : Spec.Pointers (Spec.childPtrs List.dropLast (g.map (·.1)) prev)
      ((g.map (·.1)).map (Spec.storedId U ((files.map (·.map (·.1))).getD ro []) ro)).length := by rw [List.length_map]; exact e4
  have hlen := (FastEF.absVals_grouped e4').length
  have hbd := TrieImpl.absVals_le _ U.length hM (Spec.childPtrs List.dropLast (g.map (·.1)) prev) [] (by simp)
  rw [hlen, List.length_map, List.length_map] at hbd
  have hpart : 2 ^ PEF.logPartOf (k + 2) = if k = 0 then 64 else 128 := by
    unfold PEF.logPartOf
    by_cases hk : k = 0
    · subst hk; rfl
    · rw [if_pos (by omega), if_neg hk]
  have hgpos : g ≠ [] := by
    intro e
    exact h.data.nonempty _ _ hc (by rw [e]; rfl)
  have hgl := List.length_pos_iff.2 hgpos
  refine ideal_exact ⟨?_, e4', hst, fun v hv => ?_, ?_, ?_, ?_⟩ (fun j b e id hb he hx => ?_)
  · intro e; exact hgpos (List.map_eq_nil_iff.1 (List.map_eq_nil_iff.1 e))
  · have := hbd v hv; omega
  · rw [List.length_map, List.length_map]; exact hsl
  · rw [List.length_map, List.length_map]
    intro hle
    have hlp := logPart_le (k + 2)
    have hsp := hp.span g hgm (by omega)
    have hm := EF.getD_mem (vs := Spec.absVals ((g.map (·.1)).map (Spec.storedId U ((files.map (·.map (·.1))).getD ro []) ro))
      (Spec.childPtrs List.dropLast (g.map (·.1)) prev) []) (i := g.length - 1) (by
        rw [hlen, List.length_map, List.length_map]; omega)
    have := hbd _ hm
    omega
  · rw [List.length_map, List.length_map, hpart]
    intro hle h2 h0
    have hget : ∀ i (hi : i < g.length), ((g.map (·.1)).map (Spec.storedId U ((files.map (·.map (·.1))).getD ro []) ro)).getD i 0 =
        Spec.storedId U ((files.map (·.map (·.1))).getD ro []) ro g[i].1 := by
      intro i hi
      rw [List.getD_eq_getElem?_getD, List.getElem?_map, List.getElem?_map, List.getElem?_eq_getElem hi]; rfl
    rw [hget 0 hgl] at h0
    obtain ⟨q, hq, hq0⟩ := hp.nonzero k g hg hle h2 ⟨g[0].1, by
      rw [List.head?_eq_getElem?, List.getElem?_map, List.getElem?_eq_getElem hgl]; rfl, h0⟩
    obtain ⟨i, hi, hqi⟩ := List.mem_iff_getElem.1 hq
    rw [List.length_tail, List.length_map] at hi
    rw [List.getElem_tail, List.getElem_map] at hqi
    refine ⟨i + 1, by omega, by omega, ?_⟩
    rw [hget (i + 1) (by omega), hqi]
    exact hq0
  · obtain ⟨p, hp1, hid, q, hq, hqd, hlt⟩ := hx
    refine ⟨hid, ?_⟩
    rw [h.data.len k prev hpv p (List.mem_of_getElem? hp1), Trie.getD_eq hc] at hq
    obtain ⟨i, hi, hqi⟩ := List.mem_iff_getElem.1 hq
    obtain ⟨i1, i2⟩ := (e5 j b e p hb he hp1 i _ (List.getElem?_eq_getElem hi)).2 (by rw [hqi]; exact hqd)
    refine ⟨i, i1, i2, ?_⟩
    rw [List.getD_eq_getElem?_getD, List.getElem?_map, List.getElem?_eq_getElem hi, hqi]
    exact hlt

theorem mapM_stored {t : TrieCount K} {session : List (List K × Nat)} (h : ∀ p ∈ session, t.lookup p.1 = some p.2) :
    (session.map (·.1)).mapM t.lookup = some (session.map (·.2)) := by
  induction session with
  | nil => rfl
  | cons p l ih =>
    rw [List.map_cons, List.mapM_cons, h p (by simp), ih fun q hq => h q (by simp [hq])]
    rfl

end
end PefTrie

/-- Specification: the word after `g` is searched with the id `id`, which is not 0, and `g` is followed in the files by a word of greater id. -/
def Spec.ClearSearch {K : Type} [DecidableEq K] (U : List K) (files : List (List (List K × Nat))) (ro : Nat) (g : List K) (id : Nat) : Prop :=
  id ≠ 0 ∧ ∃ x, Spec.Stored files (g ++ [x]) ∧ id < Spec.storedId U ((files.map (·.map (·.1))).getD ro []) ro (g ++ [x])

/-- Specification: an absent n-gram that a trie over `uniform_pef_sequence` recognises.  Its unknown words are recognised (C23); at the first
word that does not extend a stored prefix, and (with context remapping) at each window that is not stored, the search is for an id that is
not 0 and smaller than one of the ids stored there. -/
structure Spec.PefAbsent {K : Type} [DecidableEq K] (hv : Mphf K 64) (U : List K) (files : List (List (List K × Nat))) (ro : Nat) (q : List K) : Prop where
  ne : q ≠ []
  len : q.length ≤ files.length
  absent : ¬ Spec.Stored files q
  words : ∀ w ∈ q, w ∉ U → hv.lookup w ≠ some U.length ∧ ∀ u ∈ U, hv.lookup u = hv.lookup w → Mphf.mix (hv.hasher w) ≠ Mphf.mix (hv.hasher u)
  last : ∀ j, 1 ≤ j → j < q.length → Spec.Stored files (q.take j) → ¬ Spec.Stored files (q.take (j + 1)) →
    (∃ x, Spec.Stored files (q.take j ++ [x])) ∧ ((∀ w ∈ q, w ∈ U) →
      Spec.ClearSearch U files ro (q.take j) (Spec.storedId U ((files.map (·.map (·.1))).getD ro []) ro (q.take (j + 1))))
  window : ro ≠ 0 → ∀ i, ro < i → i < q.length → (∀ w ∈ q.take (i + 1), w ∈ U) →
    Spec.Stored files ((q.take i).drop (i - ro)) ∧ (∃ x, Spec.Stored files ((q.take i).drop (i - ro) ++ [x])) ∧
    ∀ c, q[i]? = some c → ¬ Spec.Stored files (Spec.window q i ro) → Spec.ClearSearch U files ro ((q.take i).drop (i - ro)) (U.idxOf c)

theorem PefTrie.clear_at {K : Type} [DecidableEq K] {U : List K} {files : List (List (List K × Nat))} {ro : Nat} (h : Spec.CountFiles U files ro)
    {g : List K} {id : Nat} (hc : Spec.ClearSearch U files ro g id) : PefTrie.ClearAt U (files.map (·.map (·.1))) ro g id := by
  obtain ⟨h1, x, ⟨f, hf, c, hm⟩, h3⟩ := hc
  refine ⟨h1, g ++ [x], ?_, by simp, h3⟩
  obtain ⟨k, hk, rfl⟩ := List.mem_iff_getElem.1 hf
  have hl : (files.map (·.map (·.1)))[k]? = some (files[k].map (·.1)) := by rw [List.getElem?_map, List.getElem?_eq_getElem hk]; rfl
  have hm' : g ++ [x] ∈ files[k].map (·.1) := List.mem_map.2 ⟨_, hm, rfl⟩
  have := h.data.len k _ hl _ hm'
  rw [List.length_append, List.length_singleton] at this
  rw [show g.length = k by omega, Trie.getD_eq hl]
  exact hm'

theorem PefTrie.answer {K : Type} [DecidableEq K] {U : List K} {files : List (List (List K × Nat))} {ro : Nat} (h : Spec.CountFiles U files ro)
    {hv : Mphf K 64} {t : TrieCount K} (hg : TrieCount.Good (PefTrie.ClearAt U (files.map (·.map (·.1))) ro) hv U files ro t) {p : List K × Nat}
    (hm : (∃ f ∈ files, p ∈ f) ∨ (p.2 = NF ∧ Spec.PefAbsent hv U files ro p.1)) : t.lookup p.1 = some p.2 := by
  have hsz : ∀ f ∈ files, f.length < 2 ^ 57 := fun f hf => by have := TrieCount.len_of_size h hf; omega
  rcases hm with ⟨f, hf, hpf⟩ | ⟨hnf, ha⟩
  · exact TrieCount.lookup_present hg h.data h.remapping h.order_max hsz hf hpf
  · rw [hnf]
    refine TrieCount.absent_of_good h hg ha.ne ha.len ha.absent ha.words ?_ ?_ ?_ ?_
    · intro j j1 j2 hst
      by_cases hst' : Spec.Stored files (p.1.take (j + 1))
      · rw [List.take_add_one, List.getElem?_eq_getElem j2] at hst'
        exact ⟨_, hst'⟩
      · exact (ha.last j j1 j2 hst hst').1
    · intro hro i i1 i2 i3
      obtain ⟨w1, w2, -⟩ := ha.window hro i i1 i2 i3
      exact ⟨w1, w2⟩
    · intro hro i c i1 i2 i3 i4
      have := (List.getElem?_eq_some_iff.1 i2).1
      exact PefTrie.clear_at h ((ha.window hro i i1 this i3).2.2 c i2 i4)
    · intro j j1 j2 hst hst' hmp
      refine PefTrie.clear_at h ((ha.last j j1 j2 hst hst').2 fun w hw => ?_)
      obtain ⟨i, hi, rfl⟩ := List.mem_iff_getElem.1 hw
      obtain ⟨⟨c, hc, hcU⟩, -⟩ := hmp i hi
      rw [List.getElem?_eq_getElem hi] at hc
      cases hc; exact hcU

/-- C49.  A count trie with `uniform_pef_sequence` grams and any of the three kinds of ranks, built from any input
files (orders 2 to 8, with or without context remapping) of the given sizes, answers every list of lookups, made one after the other in any order
and any number of times on the same trie, of stored n-grams with their counts and of the absent n-grams of `Spec.PefAbsent` with not-found.
`junkU`, `junkD`: the memory after the arrays of each sequence. -/
theorem C49_pef_trie_returns_counts {K : Type} [DecidableEq K] {L : SortLib} (hL : L.Valid) {U : List K}
    {files : List (List (List K × Nat))} {ro : Nat} (h : Spec.CountFiles U files ro) (hp : Spec.PefFiles U files ro)
    {hv : Mphf K 64} (hb : hv.BuiltFrom U) {junkU junkD : Nat → List W} (hu : ∀ k, junkU k ≠ []) (hj : ∀ k, junkD k ≠ [])
    (pr : PefRanks) (hpr : ∀ f ∈ files, f.length < pr.maxLines) :
    ∃ t, StCount.build L hv (GramsSt.pef junkU junkD) (pr.impl junkU junkD) ro files = some (.ok t) ∧
      ∀ session : List (List K × Nat), (∀ p ∈ session, (∃ f ∈ files, p ∈ f) ∨ (p.2 = NF ∧ Spec.PefAbsent hv U files ro p.1)) →
        ∃ t', t.lookups (session.map (·.1)) = some (session.map (·.2), t') := by
  have hsz : ∀ f ∈ files, f.length < 2 ^ 57 := fun f hf => by have := TrieCount.len_of_size h hf; omega
  obtain ⟨t, e, hg⟩ := TrieCount.build_ok hL (ex := PefTrie.ClearAt U (files.map (·.map (·.1))) ro) h.data h.order_min h.order_max h.remapping
    h.counts hsz hb (PefTrie.grams_exact h hp) (PefTrie.ranks_exact h pr hpr)
  obtain ⟨t', e', hs⟩ := StCount.build_sim (PefTrie.pef_implements hu hj) (PefTrie.ranks_implements hu hj pr) e
  refine ⟨t', e', fun session hm => ?_⟩
  obtain ⟨t'', e'', -⟩ := hs.lookups (PefTrie.mapM_stored fun p hpm => PefTrie.answer h hg (hm p hpm))
  exact ⟨t'', e''⟩

/-- C49, `fast_ef_sequence` grams with any of the three kinds of ranks: any list of lookups, of stored n-grams and of
absent ones that meet the conditions of C25, is answered with the counts of the former and not-found for the latter. -/
theorem C49_ef_trie_answers_sessions {K : Type} [DecidableEq K] {L : SortLib} (hL : L.Valid) {U : List K}
    {files : List (List (List K × Nat))} {ro : Nat} (h : Spec.CountFiles U files ro)
    {hv : Mphf K 64} (hb : hv.BuiltFrom U) {hr : Nat → Mphf Nat 64} (hh : Spec.RangeHashes hr files)
    {junkU junkD : Nat → List W} (hu : ∀ k, junkU k ≠ []) (hj : ∀ k, junkD k ≠ [])
    (pr : PefRanks) (hpr : ∀ f ∈ files, f.length < pr.maxLines) :
    ∃ t, StCount.build L hv (GramsImpl.fastEF hr).st (pr.impl junkU junkD) ro files = some (.ok t) ∧
      ∀ session : List (List K × Nat),
        (∀ p ∈ session, (∃ f ∈ files, p ∈ f) ∨
          (p.2 = NF ∧ p.1 ≠ [] ∧ p.1.length ≤ files.length ∧ ¬ Spec.Stored files p.1 ∧
            (∀ w ∈ p.1, w ∉ U → hv.lookup w ≠ some U.length ∧ ∀ u ∈ U, hv.lookup u = hv.lookup w → Mphf.mix (hv.hasher w) ≠ Mphf.mix (hv.hasher u)) ∧
            (∀ j, 1 ≤ j → j < p.1.length → Spec.Stored files (p.1.take j) → ∃ x, Spec.Stored files (p.1.take j ++ [x])) ∧
            (ro ≠ 0 → ∀ i, ro < i → i < p.1.length → (∀ w ∈ p.1.take (i + 1), w ∈ U) →
              Spec.Stored files ((p.1.take i).drop (i - ro)) ∧ ∃ x, Spec.Stored files ((p.1.take i).drop (i - ro) ++ [x])))) →
        ∃ t', t.lookups (session.map (·.1)) = some (session.map (·.2), t') := by
  have hsz : ∀ f ∈ files, f.length < 2 ^ 57 := fun f hf => by have := TrieCount.len_of_size h hf; omega
  obtain ⟨t, e, hg⟩ := TrieCount.build_ok hL (ex := fun _ _ => True) h.data h.order_min h.order_max h.remapping h.counts hsz hb
    (fun k prev curr h1 h2 => TrieCount.fastEF_levels h hh k prev curr h1 h2) (PefTrie.ranks_exact h pr hpr)
  obtain ⟨t', e', hs⟩ := StCount.build_sim (G := (GramsImpl.fastEF hr).st) (GramsImpl.st_implements _) (PefTrie.ranks_implements hu hj pr) e
  refine ⟨t', e', fun session hm => ?_⟩
  obtain ⟨t'', e'', -⟩ := hs.lookups (PefTrie.mapM_stored fun p hpm => by
    rcases hm p hpm with ⟨f, hf, hpf⟩ | ⟨h1, h2, h3, h4, h5, h6, h7⟩
    · exact TrieCount.lookup_present hg h.data h.remapping h.order_max hsz hf hpf
    · rw [h1]; exact TrieCount.absent_of_good h hg h2 h3 h4 h5 h6 h7 (fun _ _ _ _ _ _ _ => trivial) (fun _ _ _ _ _ _ => trivial))
  exact ⟨t'', e''⟩

/-! ## Concrete models -/

namespace PefTrieExample
open TrieCountExample

/-- The files of orders 1 to 4 of C24's example meet the conditions with remapping order 2. -/
theorem files4_pef : Spec.PefFiles [0, 1, 2] files4 2 where
  span := by simp [files4]
  nonzero := by
    intro k f h _ _
    rcases k with _ | _ | _ | k <;> simp [files4] at h <;> subst h <;> decide

/-- Those of orders 1 and 2 without remapping. -/
theorem files2_pef : Spec.PefFiles [0, 1, 2] files2 0 where
  span := by simp [files2]
  nonzero := by
    intro k f h _ _
    rcases k with _ | k <;> simp [files2] at h <;> subst h <;> decide

theorem not_stored_iff {files : List (List (List Nat × Nat))} {g : List Nat} : ¬ Spec.Stored files g ↔ ∀ f ∈ files, ∀ r ∈ f, r.1 ≠ g := by
  constructor
  · intro h f hf r hr e
    exact h ⟨f, hf, r.2, by rw [← e]; exact hr⟩
  · rintro h ⟨f, hf, c, hm⟩
    exact h f hf _ hm rfl

/-- "2 1 1" is absent; "2 1" is followed by the word 2. -/
theorem files4_absent : Spec.PefAbsent MphExample.mphf [0, 1, 2] files4 2 [2, 1, 1] where
  ne := by simp
  len := by simp [files4]
  absent := by rw [not_stored_iff]; decide
  words := by decide
  last := by
    intro j h1 h2 _ h3
    rcases j with _ | _ | _ | j
    · omega
    · exact absurd ⟨_, List.mem_of_getElem? (i := 1) rfl, 7, by simp⟩ h3
    · refine ⟨⟨2, _, List.mem_of_getElem? (i := 2) rfl, 8, by simp⟩, fun _ => ⟨by decide, 2, ⟨_, List.mem_of_getElem? (i := 2) rfl, 8, by simp⟩, by decide⟩⟩
    · simp at h2; omega
  window := by
    intro _ i h1 h2
    simp at h2; omega

example : ∃ t, StCount.build exLib MphExample.mphf (GramsSt.pef (fun _ => [7]) fun _ => [9]) (PefRanks.impl (fun _ => [7]) (fun _ => [9]) (.pspef true))
      2 files4 = some (.ok t) ∧
    ∃ t', t.lookups [[0, 2, 1, 2], [1], [2, 1, 1], [2, 1], [0, 2, 1, 2], [2, 1, 2]] = some ([2, 9, NF, 7, 2, 8], t') := by
  obtain ⟨t, e, h⟩ := C49_pef_trie_returns_counts exLib_valid (files4_ok 2 (by omega)) files4_pef MphExample.built
    (junkU := fun _ => [7]) (junkD := fun _ => [9]) (by simp) (by simp) (.pspef true) (by simp [files4, PefRanks.maxLines])
  refine ⟨t, e, h [([0, 2, 1, 2], 2), ([1], 9), ([2, 1, 1], NF), ([2, 1], 7), ([0, 2, 1, 2], 2), ([2, 1, 2], 8)] fun p hp => ?_⟩
  by_cases hp1 : p = ([2, 1, 1], NF)
  · subst hp1; exact .inr ⟨rfl, files4_absent⟩
  · refine .inl ?_
    simp only [List.mem_cons, List.not_mem_nil, or_false, hp1, false_or] at hp
    rcases hp with rfl | rfl | rfl | rfl | rfl <;> simp [files4]

example : ∃ t, StCount.build exLib MphExample.mphf (GramsSt.pef (fun _ => [7]) fun _ => [9]) (PefRanks.impl (fun _ => [7]) (fun _ => [9]) .ic)
      0 files2 = some (.ok t) ∧ ∃ t', t.lookups [[2, 1], [0, 1], [0, 2], [2, 1]] = some ([5, 7, 1, 5], t') := by
  obtain ⟨t, e, h⟩ := C49_pef_trie_returns_counts exLib_valid files2_ok files2_pef MphExample.built
    (junkU := fun _ => [7]) (junkD := fun _ => [9]) (by simp) (by simp) .ic (by simp [files2, PefRanks.maxLines])
  exact ⟨t, e, h [([2, 1], 5), ([0, 1], 7), ([0, 2], 1), ([2, 1], 5)] (fun p hp => .inl (by revert p; simp [files2]))⟩

/-- The model run: stored n-grams (twice, in several orders) and absent ones. -/
def run (ro : Nat) (files : List (List (List Nat × Nat))) (qs : List (List Nat)) : Option (List Nat) :=
  Option.bind (StCount.build exLib MphExample.mphf (GramsSt.pef (fun _ => [7]) fun _ => [9]) (PefRanks.impl (fun _ => [7]) (fun _ => [9]) (.pspef false))
    ro files) fun
    | .ok t => (t.lookups qs).map (·.1)
    | .error () => none


example : run 0 files2 [[2, 1], [0, 1], [2, 2], [0, 2], [1, 1], [2, 1]] = some [5, 7, NF, 1, NF, 5] := by decide +kernel

/-- Three bigrams, of which all but the first end with the first word. -/
def filesEq : List (List (List Nat × Nat)) := [[([0], 4), ([1], 9), ([2], 4)], [([0, 1], 7), ([1, 0], 1), ([2, 0], 1)]]

/-- The words 0 and 1 begin bigrams. -/
def filesAbs : List (List (List Nat × Nat)) := [[([0], 4), ([1], 9), ([2], 4)], [([0, 1], 7), ([1, 1], 1), ([1, 2], 3)]]

theorem filesEq_ok : Spec.CountFiles [0, 1, 2] filesEq 0 where
  data := by
    refine ⟨by decide, rfl, ?_, ?_, ?_, ?_, ?_, ?_⟩
    · intro k l h; rcases k with _ | _ | k <;> simp [filesEq] at h <;> subst h <;> simp
    · intro k l h; rcases k with _ | _ | k <;> simp [filesEq] at h <;> subst h <;> simp
    · intro k l h; rcases k with _ | _ | k <;> simp [filesEq] at h <;> subst h <;> simp
    · intro k l h; rcases k with _ | _ | k <;> simp [filesEq] at h <;> subst h <;> decide
    · intro k l l' h h'; rcases k with _ | _ | k <;> simp [filesEq] at h h'; subst h h'; simp
    · intro h; exact absurd rfl h
  order_min := by decide
  order_max := by decide
  remapping := by decide
  counts := by decide
  size := by simp [filesEq]

end PefTrieExample

open PefTrieExample in
/-- C49, defect: the bigrams "0 1", "1 0", "2 0" are stored in one partition as equal values; the lookup of "0 1" gives
the count 1 (that of the other two) and not its count 7. -/
theorem C49_equal_values_wrong_count_defect :
    Spec.CountFiles [0, 1, 2] filesEq 0 ∧ ([0, 1], 7) ∈ filesEq.getD 1 [] ∧ run 0 filesEq [[0, 1]] = some [1] :=
  ⟨filesEq_ok, by simp [filesEq], by decide +kernel⟩

open PefTrieExample in
/-- C49, defect: the trie has no bigrams "0 2" and "0 0", and all words begin or end a bigram; a lookup of "0 2" gives the
count of "1 1" (the search runs into the children of the next word) and one of "0 0" gives the count of "0 1" (id 0 is
always found). -/
theorem C49_absent_bigram_found_defect :
    ¬ Spec.Stored filesAbs [0, 2] ∧ ¬ Spec.Stored filesAbs [0, 0] ∧ run 0 filesAbs [[0, 2], [0, 0]] = some [1, 7] := by
  refine ⟨?_, ?_, by decide +kernel⟩
  all_goals
    rintro ⟨f, hf, c, hm⟩
    simp [filesAbs] at hf
    rcases hf with rfl | rfl <;> simp at hm

end Tongrams
