import Verif.Mphf
import Verif.HashCompactVector
import Verif.IntegerCodes
import Verif.PropsCompactVector

/-!
# include/utils/mph_tables.hpp
-/

namespace Tongrams

/-- `global::not_found`, util_types.hpp (`uint64_t(-1)`). -/
def notFound : W := BitVec.allOnes 64

/-- The function was built by the constructor of `mphf` (mphf.hpp:17-70) from these keys, for some
hasher and some outcome of the external sorter. -/
def Mphf.BuiltFrom {K : Type} {B : Nat} (m : Mphf K B) (keys : List K) : Prop :=
  ∃ edges order, m.domain = Mphf.hashDomain keys.length ∧
    keys.map (fun k => Mphf.nodes m.domain (m.hasher k)) = edges.map some ∧
    Mphf.IsPeeling edges order ∧ Mphf.build keys.length m.domain m.hasher order = some m

/-- Values of a compact_vector in iteration order: the loops `for (auto value : values)`. -/
def CompactVector.toList (cv : CompactVector) : Option (List W) :=
  CompactVector.Iter.take cv cv.size (cv.begin 0)

/-! ## single_valued_mpht -/

/-- `single_valued_mpht`, members: mph_tables.hpp:117-118. -/
structure SVTable (K : Type) (B : Nat) where
  h : Mphf K B
  data : HCV B

namespace SVTable
variable {K : Type} {B : Nat}

/-- The loop of the builder, mph_tables.hpp:47-54. -/
def fill (h : Mphf K B) : List K → List W → HCV B → Option (HCV B)
  | k :: ks, v :: vs, c =>
    ((h.lookupHashes (h.hasher k)).bind (fun pos => c.set pos (Mphf.mix (h.hasher k)) v)).bind (fill h ks vs)
  | [], _ :: _, _ => none
  | _, [], c => some c

/-- The builder, mph_tables.hpp:27-55, after the hash function was built (41, 44). -/
def build (h : Mphf K B) (keys : List K) (values : CompactVector) : Option (SVTable K B) :=
  (HCV.new B values.size values.width).bind fun c =>
  values.toList.bind fun vs =>
  (fill h keys vs c).map fun c => { h := h, data := c }

/-- `lookup(gram, adaptor)`, mph_tables.hpp:80-87. -/
def lookup (t : SVTable K B) (k : K) : Option W :=
  (t.h.lookupHashes (t.h.hasher k)).bind fun pos =>
  (t.data.get pos).map fun p => if p.1 = Mphf.mix (t.h.hasher k) then p.2 else notFound

end SVTable

/-! ## double_valued_mpht -/

/-- `double_valued_mpht`, members: mph_tables.hpp:262-263. -/
structure DVTable (K : Type) (B : Nat) where
  h : Mphf K B
  data : CTVec

namespace DVTable
variable {K : Type} {B : Nat}

/-- The loop of `build`, mph_tables.hpp:169-182, without client keys (`keys.size() == 0`, the only way the
repository uses it: trie_prob_lm.hpp). -/
def fill (h : Mphf K B) : List K → List W → List W → CTBuilder → Option CTBuilder
  | [], _, _, c => some c
  | k :: ks, v1 :: vs1, v2 :: vs2, c =>
    ((h.lookupHashes (h.hasher k)).bind
      (fun pos => c.set pos ((Mphf.mix (h.hasher k)).setWidth 64, v1, v2))).bind (fill h ks vs1 vs2)
  | _, _, _, _ => none

/-- `build`, mph_tables.hpp:142-184, for an empty `keys` vector. -/
def build (h : Mphf K B) (keys : List K) (values1 values2 : CompactVector) : Option (DVTable K B) :=
  (CTBuilder.new keys.length 64 values1.width values2.width).bind fun c =>
  values1.toList.bind fun vs1 =>
  values2.toList.bind fun vs2 =>
  (fill h keys vs1 vs2 c).map fun c => { h := h, data := c.build }

/-- `lookup_pair(gram, adaptor)`, mph_tables.hpp:187-203. -/
def lookupPair (t : DVTable K B) (k : K) : Option (W × W) :=
  (t.h.lookupHashes (t.h.hasher k)).bind fun pos =>
  (t.data.get pos).map fun p =>
    if p.1 = (Mphf.mix (t.h.hasher k)).setWidth 64 then (p.2.1, p.2.2) else (notFound, notFound)

/-- `lookup(gram, adaptor)`, mph_tables.hpp:224-232. -/
def lookup (t : DVTable K B) (k : K) : Option W :=
  (t.h.lookupHashes (t.h.hasher k)).bind fun pos =>
  (t.data.get pos).map fun p =>
    if p.1 = (Mphf.mix (t.h.hasher k)).setWidth 64 then p.2.1 else notFound

end DVTable

/-! ## uint_mpht -/

/-- `uint_mpht`, members: mph_tables.hpp:348-349. -/
structure UTable (K : Type) (B : Nat) where
  h : Mphf K B
  values : CompactVector

namespace UTable
variable {K : Type} {B : Nat}

/-- The loop of `build`, mph_tables.hpp:302-307. -/
def fill (h : Mphf K B) : List K → List W → CVBuilder → Option CVBuilder
  | k :: ks, v :: vs, c =>
    ((h.lookupHashes (h.hasher k)).bind (fun pos => c.set pos v)).bind (fill h ks vs)
  | [], _ :: _, _ => none
  | _, [], c => some c

/-- `build(from, to, adaptor)`, mph_tables.hpp:283-309; `to.back()` of an empty vector is undefined.
`m_values.build(cvb)` is `compact_vector::build(builder&)`. -/
def build (h : Mphf K B) (keys : List K) (vals : List W) : Option (UTable K B) :=
  vals.getLast?.bind fun back =>
  (CVBuilder.new vals.length (ceilLog2 (back + 1#64))).bind fun c =>
  (fill h keys vals c).map fun c => { h := h, values := CompactVector.ofBuilder c }

/-- `lookup(x, adaptor)`, mph_tables.hpp:311-316: no key is compared. -/
def lookup (t : UTable K B) (k : K) : Option W :=
  (t.h.lookupHashes (t.h.hasher k)).bind fun pos => t.values.get pos

end UTable

/-! ## Proofs -/

namespace Mphf
variable {K : Type} {B : Nat}

theorem hashDomain_pos {n : Nat} (h : 0 < n) : 0 < hashDomain n := by unfold hashDomain; omega

/-- Positions of the keys. -/
theorem BuiltFrom.positions {m : Mphf K B} {keys : List K} (h : m.BuiltFrom keys) (hne : keys ≠ []) :
    ∃ ps : List Nat, keys.map m.lookup = ps.map some ∧ ps.Nodup ∧ ps.length = keys.length ∧
      (∀ p, p ∈ ps ↔ p < keys.length) := by
  obtain ⟨edges, order, hdom, he, hp, hb⟩ := h
  have hpos : 0 < m.domain := by rw [hdom]; exact hashDomain_pos (List.length_pos_iff.2 hne)
  obtain ⟨m', hb', -, h1, h2, h3⟩ := C22_mphf_bijection hpos he hp
  rw [hb] at hb'; cases hb'
  have hps : keys.map m.lookup = (keys.map (fun k => (m.lookup k).getD 0)).map some := by
    rw [List.map_map]
    apply List.map_congr_left
    intro k hk
    obtain ⟨p, _, e⟩ := h1 k hk
    simp [e]
  refine ⟨keys.map (fun k => (m.lookup k).getD 0), hps, ?_, by simp, ?_⟩
  · rw [nodup_iff_ne]
    intro i j hij hj heq
    simp only [List.length_map] at hj
    have hi : i < keys.length := by omega
    simp only [List.getElem?_map, List.getElem?_eq_getElem hi, List.getElem?_eq_getElem hj, Option.map_some,
      Option.some.injEq] at heq
    obtain ⟨p, _, e1⟩ := h1 _ (List.getElem_mem hi)
    obtain ⟨q, _, e2⟩ := h1 _ (List.getElem_mem hj)
    have := h2 i j hi hj (by rw [e1, e2] at heq ⊢; simpa using heq)
    omega
  · intro p
    constructor
    · intro hpm
      obtain ⟨k, hk, e⟩ := List.mem_map.1 hpm
      obtain ⟨q, hq, e'⟩ := h1 k hk
      rw [e'] at e; simp at e; omega
    · intro hlt
      obtain ⟨k, hk, e⟩ := h3 p hlt
      exact List.mem_map.2 ⟨k, hk, by simp [e]⟩

/-- Any key at all, present or not, is mapped to a position at most `n`; `n` itself is possible. -/
theorem BuiltFrom.lookup_le {m : Mphf K B} {keys : List K} (h : m.BuiltFrom keys) (hne : keys ≠ []) (x : K) :
    ∃ p, m.lookup x = some p ∧ p ≤ keys.length := by
  obtain ⟨edges, order, hdom, he, hp, hb⟩ := h
  have hpos : 0 < m.domain := by rw [hdom]; exact hashDomain_pos (List.length_pos_iff.2 hne)
  obtain ⟨m', hb', hn, hd', hh', hinv, hlen, -, -⟩ := build_spec hpos he hp
  rw [hb] at hb'; cases hb'
  obtain ⟨a, b, c, e, l1, l2, l3⟩ := nodes_spec hpos (m.hasher x)
  have hl := hinv.len
  have hget : ∀ i, i < m.domain * 3 → m.bv[i]? = some (m.bv.getD i 0) := by
    intro i hi
    rw [List.getD_eq_getElem?_getD, List.getElem?_eq_getElem (by omega)]; rfl
  unfold lookup lookupHashes
  rw [e]
  simp only [Option.bind_eq_bind, Option.bind_some, hget a (by omega), hget b (by omega), hget c (by omega)]
  refine ⟨_, rfl, ?_⟩
  have hc := hinv.cnt
  have hr : ∀ i, i ≤ m.domain * 3 → rank m.bv i ≤ keys.length := by
    intro i hi
    have := Spec.rank_mono (fun i => decide (m.bv.getD i 0 ≠ 0)) hi
    unfold rank at hc ⊢; omega
  split
  · exact hr a (by omega)
  · split
    · exact hr b (by omega)
    · exact hr c (by omega)

end Mphf

/-- A sequence of writes at distinct positions: each written position holds what was written. -/
theorem foldl_set_get {α : Type} (ops : List (Nat × α)) :
    ∀ (es : List α), (ops.map Prod.fst).Nodup → (∀ o ∈ ops, o.1 < es.length) →
      (ops.foldl (fun es o => es.set o.1 o.2) es).length = es.length ∧
      (∀ p, p ∉ ops.map Prod.fst → (ops.foldl (fun es o => es.set o.1 o.2) es)[p]? = es[p]?) ∧
      ∀ o ∈ ops, (ops.foldl (fun es o => es.set o.1 o.2) es)[o.1]? = some o.2 := by
  induction ops with
  | nil => intro es _ _; simp
  | cons o ops ih =>
    intro es hnd hlt
    simp only [List.map_cons, List.nodup_cons] at hnd
    obtain ⟨h1, h2, h3⟩ := ih (es.set o.1 o.2) hnd.2 (by intro o' ho'; simpa using hlt o' (by simp [ho']))
    simp only [List.foldl_cons]
    refine ⟨by rw [h1]; simp, ?_, ?_⟩
    · intro p hp
      simp only [List.map_cons, List.mem_cons, not_or] at hp
      rw [h2 p hp.2, List.getElem?_set_ne (by omega)]
    · intro o' ho'
      rcases List.mem_cons.1 ho' with rfl | ho'
      · rw [h2 _ hnd.1, List.getElem?_set_self (hlt _ (by simp))]
      · exact h3 o' ho'

theorem CompactVector.Holds.toList {cv : CompactVector} {vs : List W} (h : cv.Holds vs) : cv.toList = some vs := by
  unfold CompactVector.toList
  rw [CompactVector.iter_take h cv.size 0 _ (by rw [h.size]; omega) rfl rfl, h.size]; simp

namespace SVTable
variable {K : Type} {B : Nat}

theorem fill_spec (h : Mphf K B) : ∀ (ks : List K) (vs : List W) (ps : List Nat) (c : HCV B), ks.length = vs.length →
    ks.map h.lookup = ps.map some →
    fill h ks vs c = c.setAll (ps.zip ((ks.map fun k => Mphf.mix (h.hasher k)).zip vs)) := by
  intro ks
  induction ks with
  | nil => intro vs ps c hl hp; cases vs <;> cases ps <;> simp_all [fill, HCV.setAll]
  | cons k ks ih =>
    intro vs ps c hl hp
    cases vs with
    | nil => simp at hl
    | cons v vs =>
      cases ps with
      | nil => simp at hp
      | cons p ps =>
        simp only [List.map_cons, List.cons.injEq] at hp
        have hp1 : h.lookupHashes (h.hasher k) = some p := hp.1
        simp only [fill, List.map_cons, List.zip_cons_cons, HCV.setAll, hp1, Option.bind_some]
        congr 1
        funext c'
        exact ih vs ps c' (by simpa using hl) hp.2

/-- The stored pairs after building: the slot of each key holds its hash key and its value, and every
slot below `n` is the slot of some key. -/
theorem build_spec {h : Mphf K B} {keys : List K} (hb : h.BuiltFrom keys) (hne : keys ≠ []) {values : CompactVector}
    {vs : List W} (hv : values.Holds vs) (hlen : vs.length = keys.length)
    (hB : B = 64 ∧ values.width ≤ 64 ∨ B = 32 ∧ (values.width ≤ 32 ∨ values.width = 64))
    (hsize : keys.length * (B + values.width) ≤ 2 ^ B) :
    ∃ t, build h keys values = some t ∧ t.h = h ∧
      (∀ i (hi : i < keys.length), ∃ p, h.lookup keys[i] = some p ∧ p < keys.length ∧
        t.data.get p = some (Mphf.mix (h.hasher keys[i]), vs[i]'(by omega))) ∧
      (∀ p, p < keys.length → ∃ i, ∃ hi : i < keys.length, h.lookup keys[i] = some p ∧
        t.data.get p = some (Mphf.mix (h.hasher keys[i]), vs[i]'(by omega))) := by
  obtain ⟨ps, hps, hnd, hpl, hpm⟩ := hb.positions hne
  have hsz := hv.size
  obtain ⟨c, ec, hc, hcw⟩ := HCV.new_holds (n := values.size) hB hv.wf.w1 (by rw [hsz, hlen]; exact hsize)
  let ops := ps.zip ((keys.map fun k => Mphf.mix (h.hasher k)).zip vs)
  have hfst : ops.map Prod.fst = ps := by
    apply List.map_fst_zip; simp; omega
  have hopm : ∀ o ∈ ops, o.1 < values.size ∧ o.2.2.toNat < 2 ^ values.width := by
    intro o ho
    have h1 := (List.of_mem_zip ho)
    have h2 := (List.of_mem_zip (show (o.2.1, o.2.2) ∈ _ from h1.2))
    exact ⟨by rw [hsz, hlen]; exact (hpm _).1 h1.1, hv.fit _ h2.2⟩
  obtain ⟨c', ec', hc', -⟩ := hc.setAll (n := values.size) (w := values.width) ops (by simp) hcw hopm
  obtain ⟨f1, f2, f3⟩ := foldl_set_get ops (List.replicate values.size (0, 0)) (by rw [hfst]; exact hnd)
    (by intro o ho; simpa using (hopm o ho).1)
  have hget : ∀ i (hi : i < keys.length), ∃ p, h.lookup keys[i] = some p ∧ p < keys.length ∧ ps[i]? = some p ∧
        c'.get p = some (Mphf.mix (h.hasher keys[i]), vs[i]'(by omega)) := by
    intro i hi
    have hip : i < ps.length := by omega
    have e1 : h.lookup keys[i] = some ps[i] := by
      have := congrArg (fun l => l[i]?) hps
      simpa [hi, hip] using this
    have hlt : ps[i] < keys.length := (hpm _).1 (List.getElem_mem _)
    refine ⟨ps[i], e1, hlt, by simp [hip], ?_⟩
    have hmem : (ps[i], Mphf.mix (h.hasher keys[i]), vs[i]'(by omega)) ∈ ops := by
      apply List.mem_iff_getElem.2
      refine ⟨i, by simp [ops]; omega, by simp [ops]⟩
    have := f3 _ hmem
    rw [hc'.get (i := ps[i]) (by rw [f1]; simp; omega)]
    rw [List.getElem?_eq_getElem (by rw [f1]; simp; omega)] at this
    exact this
  refine ⟨⟨h, c'⟩, ?_, rfl, ?_, ?_⟩
  · unfold build
    rw [ec, Option.bind_some, hv.toList, Option.bind_some, fill_spec h keys vs ps c (by omega) hps, ec', Option.map_some]
  · intro i hi
    obtain ⟨p, a, b, _, d⟩ := hget i hi
    exact ⟨p, a, b, d⟩
  · intro p hp
    obtain ⟨i, hi, e⟩ := List.mem_iff_getElem.1 ((hpm p).2 hp)
    obtain ⟨q, a, b, c1, d⟩ := hget i (by omega)
    rw [List.getElem?_eq_getElem hi, e] at c1
    cases c1
    exact ⟨i, by omega, a, d⟩

end SVTable

/-- C23, `single_valued_mpht`.  For any keys the hash function could be built from, and any values stored in
a compact_vector (64-bit hash keys: any width; 32-bit: width at most 32 or 64, table below 2^32 bits), the
table is built and looking up the i-th key returns the i-th value. -/
theorem C23_single_valued_present {K : Type} {B : Nat} {h : Mphf K B} {keys : List K} (hb : h.BuiltFrom keys)
    (hne : keys ≠ []) {values : CompactVector} {vs : List W} (hv : values.Holds vs) (hlen : vs.length = keys.length)
    (hB : B = 64 ∧ values.width ≤ 64 ∨ B = 32 ∧ (values.width ≤ 32 ∨ values.width = 64))
    (hsize : keys.length * (B + values.width) ≤ 2 ^ B) :
    ∃ t, SVTable.build h keys values = some t ∧
      ∀ i (hi : i < keys.length), t.lookup keys[i] = some (vs[i]'(by omega)) := by
  obtain ⟨t, e, hth, h1, -⟩ := SVTable.build_spec hb hne hv hlen hB hsize
  refine ⟨t, e, fun i hi => ?_⟩
  obtain ⟨p, a, b, c⟩ := h1 i hi
  unfold SVTable.lookup
  have a' : t.h.lookupHashes (t.h.hasher keys[i]) = some p := by rw [hth]; exact a
  rw [a', Option.bind_some, c, Option.map_some, hth, if_pos rfl]

/-- C23, `single_valued_mpht`, any other key `x`: if its slot `p` is inside the table, the slot belongs to
some stored key `keys[i]`, and the answer is not-found unless the 64-bit (32-bit) hash keys of `x` and
`keys[i]` coincide.  (`p = n` is possible too: see `C23_absent_key_out_of_bounds_defect`.) -/
theorem C23_single_valued_absent {K : Type} {B : Nat} {h : Mphf K B} {keys : List K} (hb : h.BuiltFrom keys)
    (hne : keys ≠ []) {values : CompactVector} {vs : List W} (hv : values.Holds vs) (hlen : vs.length = keys.length)
    (hB : B = 64 ∧ values.width ≤ 64 ∨ B = 32 ∧ (values.width ≤ 32 ∨ values.width = 64))
    (hsize : keys.length * (B + values.width) ≤ 2 ^ B) :
    ∃ t, SVTable.build h keys values = some t ∧
      ∀ x, ∃ p, h.lookup x = some p ∧ p ≤ keys.length ∧
        (p < keys.length → ∃ i, ∃ hi : i < keys.length, h.lookup keys[i] = some p ∧
          (Mphf.mix (h.hasher x) ≠ Mphf.mix (h.hasher keys[i]) → t.lookup x = some notFound) ∧
          (Mphf.mix (h.hasher x) = Mphf.mix (h.hasher keys[i]) → t.lookup x = some (vs[i]'(by omega)))) := by
  obtain ⟨t, e, hth, -, h2⟩ := SVTable.build_spec hb hne hv hlen hB hsize
  refine ⟨t, e, fun x => ?_⟩
  obtain ⟨p, hp, hle⟩ := hb.lookup_le hne x
  refine ⟨p, hp, hle, fun hlt => ?_⟩
  obtain ⟨i, hi, a, c⟩ := h2 p hlt
  refine ⟨i, hi, a, fun hm => ?_, fun hm => ?_⟩
  · unfold SVTable.lookup
    have a' : t.h.lookupHashes (t.h.hasher x) = some p := by rw [hth]; exact hp
    rw [a', Option.bind_some, c, Option.map_some, hth, if_neg (fun q => hm q.symm)]
  · unfold SVTable.lookup
    have a' : t.h.lookupHashes (t.h.hasher x) = some p := by rw [hth]; exact hp
    rw [a', Option.bind_some, c, Option.map_some, hth, if_pos hm.symm]

namespace DVTable
variable {K : Type} {B : Nat}

/-- all the writes of the loop -/
def setAll : List (Nat × W × W × W) → CTBuilder → Option CTBuilder
  | [], c => some c
  | (i, t) :: ops, c => (c.set i t).bind (setAll ops)

theorem fill_spec (h : Mphf K B) : ∀ (ks : List K) (vs1 vs2 : List W) (ps : List Nat) (c : CTBuilder),
    ks.length = vs1.length → ks.length = vs2.length → ks.map h.lookup = ps.map some →
    fill h ks vs1 vs2 c = setAll (ps.zip ((ks.map fun k => (Mphf.mix (h.hasher k)).setWidth 64).zip (vs1.zip vs2))) c := by
  intro ks
  induction ks with
  | nil => intro vs1 vs2 ps c hl hl2 hp; cases ps <;> simp_all [fill, setAll]
  | cons k ks ih =>
    intro vs1 vs2 ps c hl hl2 hp
    cases vs1 with
    | nil => simp at hl
    | cons v vs =>
      cases vs2 with
      | nil => simp at hl2
      | cons v2 vs2 =>
      cases ps with
      | nil => simp at hp
      | cons p ps =>
        simp only [List.map_cons, List.cons.injEq] at hp
        have hp1 : h.lookupHashes (h.hasher k) = some p := hp.1
        simp only [fill, List.map_cons, List.zip_cons_cons, setAll, hp1, Option.bind_some]
        congr 1
        funext c'
        exact ih vs vs2 ps c' (by simpa using hl) (by simpa using hl2) hp.2

theorem setAll_holds {n w1 w2 w3 : Nat} (ops : List (Nat × W × W × W)) :
    ∀ {c : CTBuilder} {es : List (W × W × W)}, c.Holds es → es.length = n → c.w1 = w1 → c.w2 = w2 → c.w3 = w3 →
      (∀ o ∈ ops, o.1 < n ∧ o.2.1.toNat < 2 ^ w1 ∧ o.2.2.1.toNat < 2 ^ w2 ∧ o.2.2.2.toNat < 2 ^ w3) →
      ∃ c', setAll ops c = some c' ∧ c'.Holds (ops.foldl (fun es o => es.set o.1 o.2) es) := by
  induction ops with
  | nil => intro c es h _ _ _ _ _; exact ⟨c, rfl, h⟩
  | cons o ops ih =>
    intro c es h hn h1 h2 h3 ho
    obtain ⟨i, t⟩ := o
    obtain ⟨o1, o2, o3, o4⟩ := ho (i, t) (by simp)
    obtain ⟨c1, e1, hc1, q1, q2, q3⟩ := CTBuilder.set_holds h (i := i) (by rw [hn]; exact o1) (t := t)
      (by rw [h1]; exact o2) (by rw [h2]; exact o3) (by rw [h3]; exact o4)
    obtain ⟨c', e', hc'⟩ := ih hc1 (by simpa using hn) (by omega) (by omega) (by omega) (fun o ho' => ho o (by simp [ho']))
    refine ⟨c', ?_, by simpa using hc'⟩
    simp only [setAll, e1, Option.bind_some]; exact e'

theorem build_spec {h : Mphf K B} {keys : List K} (hb : h.BuiltFrom keys) (hne : keys ≠ [])
    {values1 values2 : CompactVector} {vs1 vs2 : List W} (hv1 : values1.Holds vs1) (hv2 : values2.Holds vs2)
    (hlen1 : vs1.length = keys.length) (hlen2 : vs2.length = keys.length) :
    ∃ t, build h keys values1 values2 = some t ∧ t.h = h ∧
      (∀ i (hi : i < keys.length), ∃ p, h.lookup keys[i] = some p ∧ p < keys.length ∧
        t.data.get p = some ((Mphf.mix (h.hasher keys[i])).setWidth 64, vs1[i]'(by omega), vs2[i]'(by omega))) ∧
      (∀ p, p < keys.length → ∃ i, ∃ hi : i < keys.length, h.lookup keys[i] = some p ∧
        t.data.get p = some ((Mphf.mix (h.hasher keys[i])).setWidth 64, vs1[i]'(by omega), vs2[i]'(by omega))) := by
  obtain ⟨ps, hps, hnd, hpl, hpm⟩ := hb.positions hne
  obtain ⟨c, ec, hc, w1, w2, w3⟩ := CTBuilder.new_holds (n := keys.length) (w1 := 64) (by omega) hv1.wf.w64 hv2.wf.w64
  have cw : ∀ w, 1 ≤ w → ctWidth w = w := by intro w hw; unfold ctWidth; rw [if_neg (by omega)]
  rw [cw _ hv1.wf.w1] at w2
  rw [cw _ hv2.wf.w1] at w3
  let ops := ps.zip ((keys.map fun k => (Mphf.mix (h.hasher k)).setWidth 64).zip (vs1.zip vs2))
  have hfst : ops.map Prod.fst = ps := by
    apply List.map_fst_zip; simp; omega
  have hopm : ∀ o ∈ ops, o.1 < keys.length ∧ o.2.1.toNat < 2 ^ 64 ∧ o.2.2.1.toNat < 2 ^ values1.width ∧
      o.2.2.2.toNat < 2 ^ values2.width := by
    intro o ho
    have h1 := (List.of_mem_zip ho)
    have h2 := (List.of_mem_zip (show (o.2.1, o.2.2) ∈ _ from h1.2))
    have h3 := (List.of_mem_zip (show (o.2.2.1, o.2.2.2) ∈ _ from h2.2))
    exact ⟨(hpm _).1 h1.1, o.2.1.isLt, hv1.fit _ h3.1, hv2.fit _ h3.2⟩
  obtain ⟨c', ec', hc'⟩ := setAll_holds (n := keys.length) ops hc (by simp) w1 w2 w3 hopm
  obtain ⟨f1, f2, f3⟩ := foldl_set_get ops (List.replicate keys.length (0, 0, 0)) (by rw [hfst]; exact hnd)
    (by intro o ho; simpa using (hopm o ho).1)
  have hget : ∀ i (hi : i < keys.length), ∃ p, h.lookup keys[i] = some p ∧ p < keys.length ∧ ps[i]? = some p ∧
        c'.build.get p = some ((Mphf.mix (h.hasher keys[i])).setWidth 64, vs1[i]'(by omega), vs2[i]'(by omega)) := by
    intro i hi
    have hip : i < ps.length := by omega
    have e1 : h.lookup keys[i] = some ps[i] := by
      have := congrArg (fun l => l[i]?) hps
      simpa [hi, hip] using this
    have hlt : ps[i] < keys.length := (hpm _).1 (List.getElem_mem _)
    refine ⟨ps[i], e1, hlt, by simp [hip], ?_⟩
    have hmem : (ps[i], (Mphf.mix (h.hasher keys[i])).setWidth 64, vs1[i]'(by omega), vs2[i]'(by omega)) ∈ ops := by
      apply List.mem_iff_getElem.2
      refine ⟨i, by simp [ops]; omega, by simp [ops]⟩
    have := f3 _ hmem
    rw [CTBuilder.get_spec hc' (i := ps[i]) (by rw [f1]; simp; omega)]
    rw [List.getElem?_eq_getElem (by rw [f1]; simp; omega)] at this
    exact this
  refine ⟨⟨h, c'.build⟩, ?_, rfl, ?_, ?_⟩
  · unfold build
    rw [ec, Option.bind_some, hv1.toList, Option.bind_some, hv2.toList, Option.bind_some,
      fill_spec h keys vs1 vs2 ps c (by omega) (by omega) hps, ec', Option.map_some]
  · intro i hi
    obtain ⟨p, a, b, _, d⟩ := hget i hi
    exact ⟨p, a, b, d⟩
  · intro p hp
    obtain ⟨i, hi, e⟩ := List.mem_iff_getElem.1 ((hpm p).2 hp)
    obtain ⟨q, a, b, c1, d⟩ := hget i (by omega)
    rw [List.getElem?_eq_getElem hi, e] at c1
    cases c1
    exact ⟨i, by omega, a, d⟩

end DVTable

/-- C23, `double_valued_mpht`: both values of every key are returned; a key that is not in the table and
whose slot is inside it gets not-found, or the values of the key owning the slot if their hash keys coincide. -/
theorem C23_double_valued {K : Type} {B : Nat} {h : Mphf K B} {keys : List K} (hb : h.BuiltFrom keys)
    (hne : keys ≠ []) (hB : B = 32 ∨ B = 64)
    {values1 values2 : CompactVector} {vs1 vs2 : List W} (hv1 : values1.Holds vs1) (hv2 : values2.Holds vs2)
    (hlen1 : vs1.length = keys.length) (hlen2 : vs2.length = keys.length) :
    ∃ t, DVTable.build h keys values1 values2 = some t ∧
      (∀ i (hi : i < keys.length), t.lookupPair keys[i] = some (vs1[i]'(by omega), vs2[i]'(by omega)) ∧
        t.lookup keys[i] = some (vs1[i]'(by omega))) ∧
      ∀ x p, h.lookup x = some p → p < keys.length → ∃ i, ∃ hi : i < keys.length, h.lookup keys[i] = some p ∧
        (Mphf.mix (h.hasher x) ≠ Mphf.mix (h.hasher keys[i]) →
          t.lookupPair x = some (notFound, notFound) ∧ t.lookup x = some notFound) ∧
        (Mphf.mix (h.hasher x) = Mphf.mix (h.hasher keys[i]) →
          t.lookupPair x = some (vs1[i]'(by omega), vs2[i]'(by omega)) ∧ t.lookup x = some (vs1[i]'(by omega))) := by
  obtain ⟨t, e, hth, h1, h2⟩ := DVTable.build_spec hb hne hv1 hv2 hlen1 hlen2
  refine ⟨t, e, fun i hi => ?_, fun x p hp hlt => ?_⟩
  · obtain ⟨p, a, b, c⟩ := h1 i hi
    have a' : t.h.lookupHashes (t.h.hasher keys[i]) = some p := by rw [hth]; exact a
    constructor
    · unfold DVTable.lookupPair
      rw [a', Option.bind_some, c, Option.map_some, hth, if_pos rfl]
    · unfold DVTable.lookup
      rw [a', Option.bind_some, c, Option.map_some, hth, if_pos rfl]
  · obtain ⟨i, hi, a, c⟩ := h2 p hlt
    have a' : t.h.lookupHashes (t.h.hasher x) = some p := by rw [hth]; exact hp
    refine ⟨i, hi, a, fun hm => ?_, fun hm => ?_⟩
    rotate_left
    · constructor
      · unfold DVTable.lookupPair
        rw [a', Option.bind_some, c, Option.map_some, hth, hm, if_pos rfl]
      · unfold DVTable.lookup
        rw [a', Option.bind_some, c, Option.map_some, hth, hm, if_pos rfl]
    have hm' : (Mphf.mix (h.hasher keys[i])).setWidth 64 ≠ (Mphf.mix (h.hasher x)).setWidth 64 := by
      intro q
      apply hm
      have := congrArg BitVec.toNat q
      rw [BitVec.toNat_setWidth, BitVec.toNat_setWidth] at this
      have l1 := (Mphf.mix (h.hasher keys[i])).isLt
      have l2 := (Mphf.mix (h.hasher x)).isLt
      have hpw : 2 ^ B ≤ 2 ^ 64 := Nat.pow_le_pow_right (by omega) (by omega)
      rw [Nat.mod_eq_of_lt (by omega), Nat.mod_eq_of_lt (by omega)] at this
      exact BitVec.eq_of_toNat_eq this.symm
    constructor
    · unfold DVTable.lookupPair
      rw [a', Option.bind_some, c, Option.map_some, hth, if_neg hm']
    · unfold DVTable.lookup
      rw [a', Option.bind_some, c, Option.map_some, hth, if_neg hm']

namespace UTable
variable {K : Type} {B : Nat}

theorem fill_spec (h : Mphf K B) : ∀ (ks : List K) (vs : List W) (ps : List Nat) (c : CVBuilder), ks.length = vs.length →
    ks.map h.lookup = ps.map some → fill h ks vs c = c.sets (ps.zip vs) := by
  intro ks
  induction ks with
  | nil => intro vs ps c hl hp; cases vs <;> cases ps <;> simp_all [fill, CVBuilder.sets]
  | cons k ks ih =>
    intro vs ps c hl hp
    cases vs with
    | nil => simp at hl
    | cons v vs =>
      cases ps with
      | nil => simp at hp
      | cons p ps =>
        simp only [List.map_cons, List.cons.injEq] at hp
        have hp1 : h.lookupHashes (h.hasher k) = some p := hp.1
        simp only [fill, List.zip_cons_cons, CVBuilder.sets, hp1, Option.bind_some, Option.bind_eq_bind]
        congr 1
        funext c'
        exact ih vs ps c' (by simpa using hl) hp.2

theorem lastWrite_distinct {α : Type} (k : Nat) (v : α) : ∀ (ops : List (Nat × α)) (init : α), (ops.map Prod.fst).Nodup →
    ((k, v) ∈ ops → Spec.lastWrite init k ops = v) ∧ (k ∉ ops.map Prod.fst → Spec.lastWrite init k ops = init) := by
  intro ops
  induction ops with
  | nil => intro init _; simp [Spec.lastWrite]
  | cons o ops ih =>
    intro init hnd
    obtain ⟨i, w⟩ := o
    simp only [List.map_cons, List.nodup_cons] at hnd
    simp only [Spec.lastWrite]
    constructor
    · intro hm
      rcases List.mem_cons.1 hm with hm | hm
      · cases hm
        rw [if_pos rfl]
        exact (ih v hnd.2).2 hnd.1
      · exact (ih _ hnd.2).1 hm
    · intro hm
      simp only [List.map_cons, List.mem_cons, not_or] at hm
      rw [if_neg (fun h => hm.1 h.symm)]
      exact (ih _ hnd.2).2 hm.2

/-- width 0: nothing is stored -/
theorem sets_zero (n : Nat) : ∀ (ops : List (Nat × W)) (b : CVBuilder), b.width = 1 → b.mask = 0#64 → n ≤ 64 * b.bits.length →
    b.size = n → (∀ o ∈ ops, o.1 < n ∧ o.2 = 0#64) →
    ∃ b', b.sets ops = some b' ∧ b'.bits = b.bits ∧ b'.width = 1 ∧ b'.size = n := by
  intro ops
  induction ops with
  | nil => intro b hw _ _ hs _; exact ⟨b, rfl, rfl, hw, hs⟩
  | cons o ops ih =>
    intro b hw hm hl hs ho
    obtain ⟨i, v⟩ := o
    obtain ⟨h1, h2⟩ := ho (i, v) (by simp)
    simp only at h1 h2; subst h2
    have e : b.set i 0#64 = some { b with back := if i = b.size - 1 then 0#64 else b.back } := by
      unfold CVBuilder.set
      rw [hw, hm, CVBuilder.writeField_zero (by omega)]
      simp
    obtain ⟨b', e', r⟩ := ih { b with back := if i = b.size - 1 then 0#64 else b.back } hw hm hl hs
      (fun o ho' => ho o (by simp [ho']))
    refine ⟨b', ?_, r⟩
    simp only [CVBuilder.sets, e, Option.bind_eq_bind, Option.bind_some]; exact e'

end UTable

/-- C23, `uint_mpht`: for values none of which exceeds the last one, every key gets its value.  (No key is
stored, so other keys get an arbitrary value.) -/
theorem C23_uint_table {K : Type} {B : Nat} {h : Mphf K B} {keys : List K} (hb : h.BuiltFrom keys)
    (hne : keys ≠ []) {vs : List W} (hlen : vs.length = keys.length)
    (hmax : ∀ v ∈ vs, v.toNat ≤ (vs.getLast?.getD 0#64).toNat) (hlt : ∀ v ∈ vs, v.toNat < 2 ^ 64 - 1) :
    ∃ t, UTable.build h keys vs = some t ∧
      ∀ i (hi : i < keys.length), t.lookup keys[i] = some (vs[i]'(by omega)) := by
  obtain ⟨ps, hps, hnd, hpl, hpm⟩ := hb.positions hne
  have hvne : vs ≠ [] := by intro h0; subst h0; simp at hlen; exact hne (List.length_eq_zero_iff.1 hlen.symm)
  obtain ⟨back, hback⟩ : ∃ b, vs.getLast? = some b := ⟨_, List.getLast?_eq_some_getLast hvne⟩
  rw [hback] at hmax
  simp only [Option.getD_some] at hmax
  have hbl : back.toNat < 2 ^ 64 - 1 := hlt _ (List.mem_of_getLast? hback)
  have hto : (back + 1#64).toNat = back.toNat + 1 := by
    rw [BitVec.toNat_add, Nat.mod_eq_of_lt]; · rfl
    · simp; omega
  have hcl := (ceilLog2_spec (back + 1#64))
  have hfit : ∀ v ∈ vs, v.toNat < 2 ^ ceilLog2 (back + 1#64) := by
    intro v hv
    have := hmax v hv
    have := hcl.1
    omega
  have hw64 : ceilLog2 (back + 1#64) ≤ 64 := by
    have := (C10_logs (back + 1#64)).1 64
    exact this.1 (by omega)
  have hmem : ∀ i (hi : i < keys.length), (ps[i]'(by omega), vs[i]'(by omega)) ∈ ps.zip vs := by
    intro i hi
    apply List.mem_iff_getElem.2
    exact ⟨i, by simp; omega, by simp⟩
  have hfst : (ps.zip vs).map Prod.fst = ps := by apply List.map_fst_zip; omega
  have hops : ∀ o ∈ ps.zip vs, o.1 < vs.length ∧ o.2.toNat < 2 ^ ceilLog2 (back + 1#64) := by
    intro o ho
    have h1 := (List.of_mem_zip ho)
    exact ⟨by rw [hlen]; exact (hpm _).1 h1.1, hfit _ h1.2⟩
  have hlk : ∀ i (hi : i < keys.length), h.lookup keys[i] = some (ps[i]'(by omega)) := by
    intro i hi
    have hip : i < ps.length := by omega
    have := congrArg (fun l => l[i]?) hps
    simpa [hi, hip] using this
  have hplt : ∀ i (hi : i < keys.length), ps[i]'(by omega) < vs.length := by
    intro i hi; rw [hlen]; exact (hpm _).1 (List.getElem_mem _)
  by_cases hw : ceilLog2 (back + 1#64) = 0
  · -- every value is 0
    have hz : ∀ v ∈ vs, v = 0#64 := by
      intro v hv
      have := hfit v hv
      rw [hw] at this
      apply BitVec.eq_of_toNat_eq; simp; omega
    obtain ⟨b, e, hp⟩ := CVBuilder.new_pushed0 vs.length
    obtain ⟨b', e', q1, q2, q3⟩ := UTable.sets_zero vs.length (ps.zip vs) b hp.width hp.mask hp.len hp.size
      (fun o ho => ⟨(hops o ho).1, hz _ (List.of_mem_zip ho).2⟩)
    refine ⟨⟨h, CompactVector.ofBuilder b'⟩, ?_, ?_⟩
    · unfold UTable.build
      rw [hback, Option.bind_some, hw, e, Option.bind_some, UTable.fill_spec h keys vs ps b (by omega) hps, e',
        Option.map_some]
    · intro i hi
      unfold UTable.lookup
      have hl : h.lookupHashes (h.hasher keys[i]) = some (ps[i]'(by omega)) := hlk i hi
      simp only [hl, Option.bind_some]
      have wf : (CompactVector.ofBuilder b').WF := by
        refine ⟨by simp [CompactVector.ofBuilder, q2], by simp [CompactVector.ofBuilder, q2],
          by simp [CompactVector.ofBuilder], ?_⟩
        simp only [CompactVector.ofBuilder, q2, q3, q1]; have := hp.len; omega
      obtain ⟨x, ex, hx⟩ := CompactVector.get_of_bits wf (i := ps[i]'(by omega))
        (by simp only [CompactVector.ofBuilder, q3]; exact hplt i hi)
      rw [ex, hz _ (List.getElem_mem _)]
      congr 1
      apply BitVec.eq_of_getLsbD_eq
      intro j _
      rw [hx]
      simp only [CompactVector.ofBuilder, q1, hp.bits]; simp
  · obtain ⟨b, b', e, e', hg⟩ := C02_set_history vs.length (ceilLog2 (back + 1#64)) (by omega) hw64 (ps.zip vs) hops
    refine ⟨⟨h, CompactVector.ofBuilder b'⟩, ?_, ?_⟩
    · unfold UTable.build
      rw [hback, Option.bind_some, e, Option.bind_some, UTable.fill_spec h keys vs ps b (by omega) hps, e',
        Option.map_some]
    · intro i hi
      unfold UTable.lookup
      have hl : h.lookupHashes (h.hasher keys[i]) = some (ps[i]'(by omega)) := hlk i hi
      simp only [hl, Option.bind_some]
      rw [(hg _ (hplt i hi)).2]
      congr 1
      exact (UTable.lastWrite_distinct _ _ _ _ (by rw [hfst]; exact hnd)).1 (hmem i hi)

/-! ## A concrete table, and what happens to some absent keys -/

namespace MphExample

/-- Hashes of the keys 0, 1, 2 (stored) and of any other natural (not stored). -/
def hasher (k : Nat) : BitVec 64 × BitVec 64 × BitVec 64 :=
  if k = 0 then (0, 0, 0) else if k = 1 then (1, 0, 0) else if k = 2 then (1, 1, 0)
  else if k = 3 then (1, 1, 1) else (0, 1, 1)

def order : List Edge := [⟨4, 0, 2⟩, ⟨1, 2, 4⟩, ⟨3, 1, 4⟩]

def mphf : Mphf Nat 64 := { n := 3, domain := 2, hasher := hasher, bv := [0, 1, 0, 1, 2, 0] }

def values : CompactVector := { size := 3, width := 4, mask := 0xF, bits := [0x975] }

theorem built : mphf.BuiltFrom [0, 1, 2] := by
  refine ⟨[(0, 2, 4), (1, 2, 4), (1, 3, 4)], order, by decide, by decide, ⟨⟨_, List.Perm.refl _, ?_⟩, by decide⟩, ?_⟩
  · unfold order Mphf.Orients
    refine List.Forall₂.cons ?_ (List.Forall₂.cons ?_ (List.Forall₂.cons ?_ List.Forall₂.nil)) <;> decide
  · have h : Mphf.assign order (List.replicate 6 0) = some [0, 1, 0, 1, 2, 0] := by decide
    unfold Mphf.build
    simp only [mphf, h]
    rfl

end MphExample

/-- C23, defect.  A minimal perfect hash over three keys, a table of three values, and a key (`3`) that is not
stored: its slot is 3, one past the last entry, so `lookup` reads beyond the end of the table's storage. -/
theorem C23_absent_key_out_of_bounds_defect :
    MphExample.mphf.BuiltFrom [0, 1, 2] ∧ MphExample.mphf.lookup 3 = some 3 ∧
    ∃ t, SVTable.build MphExample.mphf [0, 1, 2] MphExample.values = some t ∧ t.lookup 3 = none ∧
      t.lookup 4 = some notFound ∧ t.lookup 2 = some 9#64 := by
  refine ⟨MphExample.built, by decide, ?_⟩
  have h : (SVTable.build MphExample.mphf [0, 1, 2] MphExample.values).isSome = true := by decide +kernel
  obtain ⟨t, e⟩ := Option.isSome_iff_exists.1 h
  refine ⟨t, e, ?_, ?_, ?_⟩
  · have : (SVTable.build MphExample.mphf [0, 1, 2] MphExample.values).map (fun t => t.lookup 3) = some none := by
      decide +kernel
    rw [e] at this; simpa using this
  · have : (SVTable.build MphExample.mphf [0, 1, 2] MphExample.values).map (fun t => t.lookup 4) = some (some notFound) := by
      decide +kernel
    rw [e] at this; simpa using this
  · have : (SVTable.build MphExample.mphf [0, 1, 2] MphExample.values).map (fun t => t.lookup 2) = some (some 9#64) := by
      decide +kernel
    rw [e] at this; simpa using this

/-- C23, defect: looking anything up in a table without entries divides by zero. -/
theorem C23_empty_table_lookup_defect {K : Type} {B : Nat} (t : SVTable K B) (h : t.h.BuiltFrom []) (k : K) :
    t.lookup k = none := by
  obtain ⟨edges, order, hd, -⟩ := h
  have : t.h.domain = 0 := by rw [hd]; simp [Mphf.hashDomain]
  unfold SVTable.lookup Mphf.lookupHashes Mphf.nodes
  simp [this]

/-- Non-vacuity of the hypotheses of the C23 theorems: the table above holds 5, 7, 9. -/
example : MphExample.values.Holds [5#64, 7#64, 9#64] := by
  refine ⟨⟨by decide, by decide, by decide, by decide⟩, rfl, ?_, ?_⟩
  · intro i hi j hj
    have hi' : i = 0 ∨ i = 1 ∨ i = 2 := by simp at hi; omega
    have hj' : j = 0 ∨ j = 1 ∨ j = 2 ∨ j = 3 := by simp [MphExample.values] at hj; omega
    rcases hi' with rfl | rfl | rfl <;> rcases hj' with rfl | rfl | rfl | rfl <;> simp only [List.getElem_cons_zero, List.getElem_cons_succ] <;> decide
  · intro v hv; simp at hv; rcases hv with rfl | rfl | rfl <;> decide

end Tongrams
