import Verif.Score
import Verif.Quantizer
import Verif.TrieCount

/-!
# The ARPA data a backoff model is built from, and its quantisation

Shared by `trie_prob_lm` and `mph_prob_lm`: reading the values, building the codebooks, packing ranks
(trie_prob_lm.hpp:30-68, 276-287, mph_prob_lm.hpp:27-58, 88-103).  The input is the list of the sections of the ARPA
file, up to the order of the model, as parsed: for each n-gram its words (oldest first), log-probability and backoff
(0 if missing).
-/

set_option linter.unusedSectionVars false

namespace Tongrams

/-- The scoring operations of the floating-point numbers used for quantisation (score.hpp:63, `if (backoff)`). -/
instance (priority := low) floatLogProb {F : Type} [FloatArith F] : LogProb F where
  nz x := decide (x ≠ 0)
  nz_zero := by simp
  add_nz x b h := by simp at h; rw [h]; exact FloatArith.add_zero' x

namespace Quant
variable {F : Type} [FloatArith F]

/-- The codebooks of all orders from 2: probabilities for each, backoffs for each but the last
(trie_prob_lm.hpp:44-68, mph_prob_lm.hpp:37-58); zero backoffs are left out (parsers.hpp:144-150). -/
def codebooks {K : Type} (sort : List F → List F) (negInf : F) (pb bb : Nat) (data : List (List (List K × F × F))) :
    Res (List (List F) × List (List F)) :=
  Res.bind (Res.mapM (fun f => buildProbs sort negInf (f.map (·.2.1)) pb) data.tail) fun ps =>
  Res.bind (Res.mapM (fun f => buildBackoffs sort negInf ((f.map (·.2.2)).filter (fun b => decide (b ≠ 0))) bb) data.tail.dropLast) fun bs =>
  some (.ok (ps, bs))

/-- The interleaved ranks stored for an n-gram of the order with index `k ≥ 1` (trie_prob_lm.hpp:276-285,
mph_prob_lm.hpp:93-102). -/
def rankPair (ps bs : List (List F)) (pb order k : Nat) (p b : F) : Option Nat :=
  (ps[k - 1]?).bind fun pc => (rank pc 0 p).bind fun pr =>
  if k + 1 ≠ order then (bs[k - 1]?).bind fun bc => (rank bc 1 b).map fun br => pr ||| (br <<< pb) else some pr

/-- `m_probs_averages.access(order_m1 - 1, ..)` and `m_backoffs_averages.access(order_m1 - 1, ..)` -/
def accessAt (cs : List (List F)) (i r : Nat) : Option F := (cs[i]?).bind fun c => access c r

end Quant

/-- Specification: the ARPA model with these sections, where the values of the orders above 1 are replaced by
`qp` / `qb` (given the order). -/
def Spec.Arpa.ofData {K F : Type} [DecidableEq K] (data : List (List (List K × F × F))) (unk : F) (qp qb : Nat → F → F) :
    Spec.Arpa K F where
  order := data.length
  unk := unk
  entry g := if g = [] then none else
    ((data.getD (g.length - 1) []).find? fun r => decide (r.1 = g)).map fun r =>
      if g.length = 1 then r.2 else (qp g.length r.2.1, qb g.length r.2.2)

/-- Specification: ARPA sections of a model of order 2 to 8: each n-gram listed once, with all its prefixes and suffixes. -/
structure Spec.ArpaFiles {K F : Type} (data : List (List (List K × F × F))) : Prop where
  order_min : 2 ≤ data.length
  order_max : data.length ≤ 8
  len : ∀ (k : Nat) (f : List (List K × F × F)), data[k]? = some f → ∀ r ∈ f, r.1.length = k + 1
  distinct : ∀ f ∈ data, (f.map (·.1)).Nodup
  nonempty : ∀ f ∈ data, f ≠ []
  suffixes : ∀ (k : Nat) (f f' : List (List K × F × F)), data[k]? = some f → data[k + 1]? = some f' → ∀ r ∈ f', r.1.tail ∈ f.map (·.1)
  prefixes : ∀ (k : Nat) (f f' : List (List K × F × F)), data[k]? = some f → data[k + 1]? = some f' → ∀ r ∈ f', r.1.dropLast ∈ f.map (·.1)

/-- Specification: numbers of quantisation bits the builder accepts for these sections (else it stops with an error). -/
structure Spec.Quantisable {K F : Type} [FloatArith F] (data : List (List (List K × F × F))) (pb bb : Nat) : Prop where
  probs : 2 ≤ pb ∧ pb ≤ 32
  backoffs : 2 ≤ bb ∧ bb ≤ 32
  probs_size : ∀ f ∈ data.tail, 2 ^ pb ≤ f.length
  backoffs_size : ∀ f ∈ data.tail.dropLast, ((f.map (·.2.2)).filter fun b => decide (b ≠ 0)).length = 0 ∨
    2 ^ bb ≤ ((f.map (·.2.2)).filter fun b => decide (b ≠ 0)).length
  /-- a centroid is the mean of at most this many values (always true in exact arithmetic; at most 2^24 values with `float`) -/
  probs_bins : ∀ f ∈ data.tail, FloatArith.BinOK F (f.length / 2 ^ pb + 1)
  backoffs_bins : ∀ f ∈ data.tail.dropLast,
    FloatArith.BinOK F (((f.map (·.2.2)).filter fun b => decide (b ≠ 0)).length / (2 ^ bb - 1) + 1)

/-- Specification: `q` replaces each value by a nearest entry of the codebook. -/
def Spec.Nearest {F : Type} [FloatArith F] (code : List F) (v q : F) : Prop :=
  q ∈ code ∧ ∀ c ∈ code, Spec.dist v q ≤ Spec.dist v c

/-- Specification: the quantisers used for the sections: for each order above 1, a listed probability becomes a nearest
one of `2^pb` centroids; for the orders between, a zero backoff stays zero and any other listed backoff becomes a nearest one of
`2^bb - 1` centroids.  Centroids lie between listed values. -/
structure Spec.Quantised {K F : Type} [FloatArith F] (data : List (List (List K × F × F))) (pb bb : Nat) (qp qb : Nat → F → F) : Prop where
  probs : ∀ (k : Nat) (f : List (List K × F × F)), data[k + 1]? = some f → ∃ code : List F, code.length = 2 ^ pb ∧
    (∀ c ∈ code, (∃ r ∈ f, r.2.1 ≤ c) ∧ ∃ r ∈ f, c ≤ r.2.1) ∧ ∀ r ∈ f, Spec.Nearest code r.2.1 (qp (k + 2) r.2.1)
  backoffs : ∀ (k : Nat) (f : List (List K × F × F)), data[k + 1]? = some f → k + 2 < data.length →
    (∀ r ∈ f, r.2.2 = 0 → qb (k + 2) r.2.2 = 0) ∧
    ((∃ r ∈ f, r.2.2 ≠ 0) → ∃ code : List F, code.length = 2 ^ bb - 1 ∧
      (∀ c ∈ code, (∃ r ∈ f, r.2.2 ≠ 0 ∧ r.2.2 ≤ c) ∧ ∃ r ∈ f, r.2.2 ≠ 0 ∧ c ≤ r.2.2) ∧
      ∀ r ∈ f, r.2.2 ≠ 0 → Spec.Nearest code r.2.2 (qb (k + 2) r.2.2))

/-! ## Proofs -/

namespace ArpaData
variable {K F : Type} [DecidableEq K]

theorem entry_eq (data : List (List (List K × F × F))) (unk : F) (qp qb : Nat → F → F) (h : Spec.ArpaFiles data)
    {k i : Nat} {f : List (List K × F × F)} {r : List K × F × F} (hf : data[k]? = some f) (hr : f[i]? = some r) :
    (Spec.Arpa.ofData data unk qp qb).entry r.1 =
      some (if r.1.length = 1 then r.2 else (qp r.1.length r.2.1, qb r.1.length r.2.2)) := by
  have hm := List.mem_of_getElem? hr
  have hl := h.len k f hf r hm
  have hne : r.1 ≠ [] := by intro e; rw [e] at hl; simp at hl
  show (if r.1 = [] then none else _) = _
  rw [if_neg hne, hl, show k + 1 - 1 = k by omega, List.getD_eq_getElem?_getD, hf, Option.getD_some]
  have hfind : f.find? (fun x => decide (x.1 = r.1)) = some r := by
    have hn := h.distinct f (List.mem_of_getElem? hf)
    clear hl hne hr
    induction f with
    | nil => simp at hm
    | cons a f ih =>
      rw [List.find?_cons]
      rcases List.mem_cons.1 hm with rfl | hm'
      · simp
      · have hne : a.1 ≠ r.1 := by
          intro e
          rw [List.map_cons, List.nodup_cons] at hn
          exact hn.1 (e ▸ List.mem_map_of_mem hm')
        have key : ∀ (f : List (List K × F × F)), r ∈ f → (f.map (·.1)).Nodup → f.find? (fun x => decide (x.1 = r.1)) = some r := by
          intro f
          induction f with
          | nil => intro h; simp at h
          | cons a f ih2 =>
            intro hm hn
            rw [List.find?_cons]
            rcases List.mem_cons.1 hm with rfl | hm'
            · simp
            · rw [List.map_cons, List.nodup_cons] at hn
              have hne : a.1 ≠ r.1 := fun e => hn.1 (e ▸ List.mem_map_of_mem hm')
              rw [decide_eq_false hne]
              exact ih2 hm' hn.2
        rw [decide_eq_false hne]
        exact key f hm' (by rw [List.map_cons, List.nodup_cons] at hn; exact hn.2)
  rw [hfind]; rfl

theorem entry_some (data : List (List (List K × F × F))) (unk : F) (qp qb : Nat → F → F) {g : List K} 
    (h : ((Spec.Arpa.ofData data unk qp qb).entry g).isSome) :
    ∃ f r, data[g.length - 1]? = some f ∧ r ∈ f ∧ r.1 = g ∧ g ≠ [] := by
  change (if g = [] then none else _ : Option (F × F)).isSome at h
  split at h
  · simp at h
  · rename_i hne
    rw [Option.isSome_map] at h
    obtain ⟨r, hr⟩ := Option.isSome_iff_exists.1 h
    have h1 := List.mem_of_find?_eq_some hr
    have h2 := List.find?_some hr
    rw [List.getD_eq_getElem?_getD] at h1
    cases hd : data[g.length - 1]? with
    | none => rw [hd] at h1; simp at h1
    | some f => rw [hd] at h1; exact ⟨f, r, rfl, h1, by simpa using h2, hne⟩

theorem wellFormed [LogProb F] (data : List (List (List K × F × F))) (unk : F) (qp qb : Nat → F → F) (h : Spec.ArpaFiles data) :
    (Spec.Arpa.ofData data unk qp qb).WellFormed := by
  have hmem : ∀ {k : Nat} {f : List (List K × F × F)} {g : List K}, data[k]? = some f → g ∈ f.map (·.1) →
      ((Spec.Arpa.ofData data unk qp qb).entry g).isSome := by
    intro k f g hf hg
    obtain ⟨r, hr, rfl⟩ := List.mem_map.1 hg
    obtain ⟨i, hi, rfl⟩ := List.mem_iff_getElem.1 hr
    rw [entry_eq data unk qp qb h hf (List.getElem?_eq_getElem hi)]; rfl
  refine ⟨h.order_min, h.order_max, ?_, ?_, ?_⟩
  · intro g hg
    obtain ⟨f, r, hf, hr, rfl, hne⟩ := entry_some data unk qp qb hg
    have := h.len _ f hf r hr
    have := (List.getElem?_eq_some_iff.1 hf).1
    have hpos := List.length_pos_iff.2 hne
    exact ⟨by omega, by show r.1.length ≤ data.length; omega⟩
  · intro x g hg hne
    obtain ⟨f, r, hf, hr, hrg, -⟩ := entry_some data unk qp qb hg
    have hpos := List.length_pos_iff.2 hne
    rw [List.length_cons, show g.length + 1 - 1 = (g.length - 1) + 1 by omega] at hf
    have hlt := (List.getElem?_eq_some_iff.1 hf).1
    have := h.suffixes (g.length - 1) _ f (List.getElem?_eq_getElem (by omega)) hf r hr
    rw [hrg, List.tail_cons] at this
    exact hmem (List.getElem?_eq_getElem (by omega)) this
  · intro g w hg hne
    obtain ⟨f, r, hf, hr, hrg, -⟩ := entry_some data unk qp qb hg
    have hpos := List.length_pos_iff.2 hne
    rw [List.length_append, List.length_singleton, show g.length + 1 - 1 = (g.length - 1) + 1 by omega] at hf
    have hlt := (List.getElem?_eq_some_iff.1 hf).1
    have := h.prefixes (g.length - 1) _ f (List.getElem?_eq_getElem (by omega)) hf r hr
    rw [hrg, List.dropLast_concat] at this
    exact hmem (List.getElem?_eq_getElem (by omega)) this

end ArpaData

namespace Quant
variable {K F : Type} [FloatArith F]

theorem makeBins_nil (negInf : F) (m k i : Nat) (avgs : List F) (ha : avgs ≠ []) :
    ∃ r, makeBins negInf [] m k i 0 avgs = some r := by
  induction k generalizing i avgs with
  | zero => exact ⟨_, rfl⟩
  | succ k ih =>
    rw [makeBins]
    simp only [List.length_nil, Nat.zero_mul, Nat.zero_div, if_true]
    obtain ⟨a, ha'⟩ : ∃ a, (if i ≠ 0 then avgs.getLast? else some negInf) = some a := by
      split
      · exact ⟨_, List.getLast?_eq_some_getLast ha⟩
      · exact ⟨_, rfl⟩
    rw [ha', Option.bind_some]
    exact ih _ _ (by simp)

/-- The value a codebook gives to `v`. -/
def value (code : List F) (reserved : Nat) (v : F) : F := ((rank code reserved v).bind (access code)).getD 0

/-- The codebooks of a quantisable model. -/
structure Codes (data : List (List (List K × F × F))) (pb bb : Nat) (ps bs : List (List F)) : Prop where
  plen : ps.length + 1 = data.length
  blen : bs.length + 2 = data.length
  probs : ∀ (k : Nat) (f : List (List K × F × F)) (c : List F), data[k + 1]? = some f → ps[k]? = some c → ∀ r ∈ f,
    ∃ i, rank c 0 r.2.1 = some i ∧ i < 2 ^ pb ∧ access c i = some (value c 0 r.2.1)
  backs : ∀ (k : Nat) (f : List (List K × F × F)) (c : List F), data[k + 1]? = some f → bs[k]? = some c → ∀ r ∈ f,
    ∃ i, rank c 1 r.2.2 = some i ∧ i < 2 ^ bb ∧ access c i = some (value c 1 r.2.2)

/-- The quantisers given by codebooks, by order. -/
def quantiser (cs : List (List F)) (reserved : Nat) (ord : Nat) (v : F) : F := value (cs.getD (ord - 2) []) reserved v

theorem codebooks_ok {sort : List F → List F} (hsort : ∀ l, (sort l).Perm l ∧ (sort l).Pairwise (· ≤ ·)) (negInf : F)
    {data : List (List (List K × F × F))} {pb bb : Nat} (h2 : 2 ≤ data.length) (hq : Spec.Quantisable data pb bb) :
    ∃ ps bs, codebooks sort negInf pb bb data = some (.ok (ps, bs)) ∧ Codes data pb bb ps bs ∧
      Spec.Quantised data pb bb (quantiser ps 0) (quantiser bs 1) := by
  obtain ⟨ps, p1, p2, p3⟩ := Res.mapM_ok (f := fun f : List (List K × F × F) => buildProbs sort negInf (f.map (·.2.1)) pb)
    (P := fun f c => c.length = 2 ^ pb ∧ (∀ x ∈ c, (∃ r ∈ f, r.2.1 ≤ x) ∧ ∃ r ∈ f, x ≤ r.2.1) ∧ ∀ v, ∃ i, rank c 0 v = some i ∧ i < 2 ^ pb ∧
      access c i = some (value c 0 v) ∧ Spec.Nearest c v (value c 0 v)) (l := data.tail) (by
      intro f hf
      obtain ⟨c, e1, e2, -, e4, e5, -⟩ := C21_probability_quantiser hsort negInf (vals := f.map (·.2.1)) hq.probs
        (by rw [List.length_map]; exact hq.probs_size f hf)
        (by rw [List.length_map]; exact hq.probs_bins f hf)
      refine ⟨c, e1, e2, ?_, ?_⟩
      · intro x hx
        obtain ⟨⟨y, hy, h1⟩, z, hz, h2⟩ := e4 x hx
        obtain ⟨ry, hry, rfl⟩ := List.mem_map.1 hy
        obtain ⟨rz, hrz, rfl⟩ := List.mem_map.1 hz
        exact ⟨⟨ry, hry, h1⟩, rz, hrz, h2⟩
      · intro v
        obtain ⟨r, x, g1, g2, g3, g4⟩ := e5 v
        have hv : value c 0 v = x := by rw [value, g1, Option.bind_some, g3]; rfl
        refine ⟨r, g1, g2, by rw [hv]; exact g3, ?_, ?_⟩
        · rw [hv]; exact List.mem_of_getElem? g3
        · rw [hv]; exact g4)
  obtain ⟨bs, b1, b2, b3⟩ := Res.mapM_ok
    (f := fun f : List (List K × F × F) => buildBackoffs sort negInf ((f.map (·.2.2)).filter (fun b => decide (b ≠ 0))) bb)
    (P := fun f c => (∀ r ∈ f, ∃ i, rank c 1 r.2.2 = some i ∧ i < 2 ^ bb ∧ access c i = some (value c 1 r.2.2)) ∧
      (∀ r ∈ f, r.2.2 = 0 → value c 1 r.2.2 = 0) ∧
      ((∃ r ∈ f, r.2.2 ≠ 0) → ∃ code : List F, code.length = 2 ^ bb - 1 ∧
        (∀ x ∈ code, (∃ r ∈ f, r.2.2 ≠ 0 ∧ r.2.2 ≤ x) ∧ ∃ r ∈ f, r.2.2 ≠ 0 ∧ x ≤ r.2.2) ∧
        ∀ r ∈ f, r.2.2 ≠ 0 → Spec.Nearest code r.2.2 (value c 1 r.2.2))) (l := data.tail.dropLast) (by
      intro f hf
      by_cases hz : ((f.map (·.2.2)).filter fun b => decide (b ≠ 0)) = []
      · have hall : ∀ r ∈ f, r.2.2 = 0 := by
          intro r hr
          by_contra hc
          have : r.2.2 ∈ (f.map (·.2.2)).filter fun b => decide (b ≠ 0) :=
            List.mem_filter.2 ⟨List.mem_map_of_mem hr, by simpa using hc⟩
          rw [hz] at this; simp at this
        have hs : sort [] = [] := List.perm_nil.1 (hsort []).1
        obtain ⟨c, hc⟩ := makeBins_nil negInf (2 ^ bb - 1) (2 ^ bb - 1) 0 [(0 : F)] (by simp)
        have hpre : ∀ (m k i : Nat) (avgs r : List F), makeBins negInf [] m k i 0 ((0 : F) :: avgs) = some r → ∃ r', r = 0 :: r' := by
          intro m k
          induction k with
          | zero => intro i avgs r h; cases h; exact ⟨_, rfl⟩
          | succ k ih =>
            intro i avgs r h
            rw [makeBins] at h
            simp only [List.length_nil, Nat.zero_mul, Nat.zero_div, if_true] at h
            obtain ⟨a, -, h⟩ := Option.bind_eq_some_iff.1 h
            exact ih _ _ _ h
        obtain ⟨c', rfl⟩ := hpre _ _ _ _ _ hc
        have hr0 : rank ((0 : F) :: c') 1 0 = some 0 := by unfold rank; rw [if_pos ⟨rfl, rfl⟩]
        have hv0 : value ((0 : F) :: c') 1 0 = 0 := by rw [value, hr0]; rfl
        refine ⟨(0 : F) :: c', ?_, ?_, ?_, ?_⟩
        · rw [hz]
          unfold buildBackoffs bitsOK
          rw [if_pos (by simp; exact hq.backoffs), hs, hc, Res.lift_some]
        · intro r hr
          rw [hall r hr, hv0]
          exact ⟨0, hr0, Nat.pow_pos (by omega), rfl⟩
        · intro r hr e
          rw [e]; exact hv0
        · rintro ⟨r, hr, hne⟩
          exact absurd (hall r hr) hne
      · have hlen : 2 ^ bb ≤ ((f.map (·.2.2)).filter fun b => decide (b ≠ 0)).length := by
          rcases hq.backoffs_size f hf with h | h
          · exact absurd (List.length_eq_zero_iff.1 h) hz
          · exact h
        obtain ⟨c, e1, e2, -, e4, ⟨e5, e6⟩, e7, -⟩ := C21_backoff_quantiser hsort negInf hq.backoffs hlen (hq.backoffs_bins f hf)
        have hv0 : value ((0 : F) :: c) 1 0 = 0 := by rw [value, e5]; rfl
        have hv : ∀ v, v ≠ 0 → ∃ i, rank ((0 : F) :: c) 1 v = some i ∧ i < 2 ^ bb ∧ access ((0 : F) :: c) i = some (value ((0 : F) :: c) 1 v) ∧
            Spec.Nearest c v (value ((0 : F) :: c) 1 v) := by
          intro v hne
          obtain ⟨r, x, g1, -, g2, g3, g4, g5⟩ := e7 v hne
          have hv : value ((0 : F) :: c) 1 v = x := by rw [value, g1, Option.bind_some, g3]; rfl
          exact ⟨r, g1, g2, by rw [hv]; exact g3, by rw [hv]; exact g4, by rw [hv]; exact g5⟩
        refine ⟨(0 : F) :: c, e1, ?_, ?_, ?_⟩
        · intro r hr
          by_cases h0 : r.2.2 = 0
          · rw [h0, hv0]; exact ⟨0, e5, Nat.pow_pos (by omega), rfl⟩
          · obtain ⟨i, g1, g2, g3, -⟩ := hv _ h0
            exact ⟨i, g1, g2, g3⟩
        · intro r hr h0
          rw [h0]; exact hv0
        · intro _
          refine ⟨c, e2, ?_, ?_⟩
          · intro x hx
            obtain ⟨⟨y, hy, h1⟩, z, hz, h2⟩ := e4 x hx
            obtain ⟨hy1, hy2⟩ := List.mem_filter.1 hy
            obtain ⟨hz1, hz2⟩ := List.mem_filter.1 hz
            obtain ⟨ry, hry, rfl⟩ := List.mem_map.1 hy1
            obtain ⟨rz, hrz, rfl⟩ := List.mem_map.1 hz1
            exact ⟨⟨ry, hry, by simpa using hy2, h1⟩, rz, hrz, by simpa using hz2, h2⟩
          · intro r _ hne
            obtain ⟨i, -, -, -, g4⟩ := hv _ hne
            exact g4)
  rw [List.length_tail] at p2
  rw [List.length_dropLast, List.length_tail] at b2
  have hget : ∀ (k : Nat) (f : List (List K × F × F)), data[k + 1]? = some f → data.tail[k]? = some f := by
    intro k f hf; rw [List.getElem?_tail]; exact hf
  have hgetd : ∀ (k : Nat) (f : List (List K × F × F)), data[k + 1]? = some f → k + 2 < data.length → data.tail.dropLast[k]? = some f := by
    intro k f hf hlt
    rw [List.getElem?_dropLast, if_pos (by rw [List.length_tail]; omega)]
    exact hget k f hf
  refine ⟨ps, bs, by rw [codebooks, p1, Res.bind_ok, b1, Res.bind_ok], ⟨by omega, by omega, ?_, ?_⟩, ⟨?_, ?_⟩⟩
  · intro k f c hf hc r _
    obtain ⟨-, -, h3⟩ := p3 k f c (hget k f hf) hc
    obtain ⟨i, g1, g2, g3, -⟩ := h3 r.2.1
    exact ⟨i, g1, g2, g3⟩
  · intro k f c hf hc r hr
    have hlt := (List.getElem?_eq_some_iff.1 hc).1
    exact (b3 k f c (hgetd k f hf (by omega)) hc).1 r hr
  · intro k f hf
    have hlt := (List.getElem?_eq_some_iff.1 hf).1
    have hc : ps[k]? = some (ps[k]'(by omega)) := List.getElem?_eq_getElem _
    obtain ⟨h1, h2, h3⟩ := p3 k f _ (hget k f hf) hc
    refine ⟨_, h1, h2, ?_⟩
    intro r _
    obtain ⟨i, -, -, -, g4⟩ := h3 r.2.1
    rw [quantiser, show k + 2 - 2 = k by omega, List.getD_eq_getElem?_getD, hc]
    exact g4
  · intro k f hf hlt
    have hc : bs[k]? = some (bs[k]'(by omega)) := List.getElem?_eq_getElem _
    obtain ⟨-, h2, h3⟩ := b3 k f _ (hgetd k f hf hlt) hc
    have hqb : ∀ v, quantiser bs 1 (k + 2) v = value (bs[k]'(by omega)) 1 v := by
      intro v
      rw [quantiser, show k + 2 - 2 = k by omega, List.getD_eq_getElem?_getD, hc]; rfl
    refine ⟨fun r hr h0 => by rw [hqb]; exact h2 r hr h0, fun hex => ?_⟩
    obtain ⟨code, c1, c2, c3⟩ := h3 hex
    exact ⟨code, c1, c2, fun r hr hne => by rw [hqb]; exact c3 r hr hne⟩

/-- The interleaved ranks and how they are taken apart. -/
theorem rankPair_ok {data : List (List (List K × F × F))} {pb bb : Nat} {ps bs : List (List F)} (hc : Codes data pb bb ps bs)
    {k : Nat} {f : List (List K × F × F)} (hf : data[k + 1]? = some f) {r : List K × F × F} (hr : r ∈ f) :
    ∃ rk, rankPair ps bs pb data.length (k + 1) r.2.1 r.2.2 = some rk ∧
      (rk < 2 ^ (pb + if k + 2 = data.length then 0 else bb)) ∧
      accessAt ps k (rk &&& (2 ^ pb - 1)) = some (quantiser ps 0 (k + 2) r.2.1) ∧
      (k + 2 < data.length → accessAt bs k (rk >>> pb) = some (quantiser bs 1 (k + 2) r.2.2)) ∧
      (k + 2 = data.length → accessAt ps k rk = some (quantiser ps 0 (k + 2) r.2.1)) := by
  have hlt := (List.getElem?_eq_some_iff.1 hf).1
  have h1 := hc.plen
  have h2 := hc.blen
  have hpc : ps[k]? = some (ps[k]'(by omega)) := List.getElem?_eq_getElem _
  obtain ⟨pr, g1, g2, g3⟩ := hc.probs k f _ hf hpc r hr
  have hqp : quantiser ps 0 (k + 2) r.2.1 = value (ps[k]'(by omega)) 0 r.2.1 := by
    rw [quantiser, show k + 2 - 2 = k by omega, List.getD_eq_getElem?_getD, hpc]; rfl
  by_cases hl : k + 2 = data.length
  · refine ⟨pr, ?_, ?_, ?_, fun h => by omega, fun _ => ?_⟩
    · rw [rankPair, show k + 1 - 1 = k by omega, hpc, Option.bind_some, g1, Option.bind_some, if_neg (by omega)]
    · rw [if_pos hl]; exact g2
    · rw [Nat.and_two_pow_sub_one_eq_mod, Nat.mod_eq_of_lt g2, accessAt, hpc, Option.bind_some, g3, hqp]
    · rw [accessAt, hpc, Option.bind_some, g3, hqp]
  · have hbc : bs[k]? = some (bs[k]'(by omega)) := List.getElem?_eq_getElem _
    obtain ⟨br, b1, b2, b3⟩ := hc.backs k f _ hf hbc r hr
    have hqb : quantiser bs 1 (k + 2) r.2.2 = value (bs[k]'(by omega)) 1 r.2.2 := by
      rw [quantiser, show k + 2 - 2 = k by omega, List.getD_eq_getElem?_getD, hbc]; rfl
    have hor : pr ||| (br <<< pb) = br * 2 ^ pb + pr := by
      rw [Nat.or_comm, ← Nat.shiftLeft_add_eq_or_of_lt g2, Nat.shiftLeft_eq]
    have hmod : (br * 2 ^ pb + pr) % 2 ^ pb = pr := by
      rw [Nat.mul_add_mod_self_right, Nat.mod_eq_of_lt g2]
    have hdiv : (br * 2 ^ pb + pr) / 2 ^ pb = br := by
      rw [Nat.mul_comm, Nat.mul_add_div (Nat.pow_pos (by omega)), Nat.div_eq_of_lt g2, Nat.add_zero]
    refine ⟨br * 2 ^ pb + pr, ?_, ?_, ?_, fun _ => ?_, fun h => absurd h hl⟩
    · rw [rankPair, show k + 1 - 1 = k by omega, hpc, Option.bind_some, g1, Option.bind_some, if_pos (by omega), hbc, Option.bind_some, b1,
        Option.map_some, hor]
    · rw [if_neg hl, Nat.pow_add]
      have h3 : (br + 1) * 2 ^ pb ≤ 2 ^ bb * 2 ^ pb := Nat.mul_le_mul_right _ b2
      rw [Nat.mul_comm (2 ^ pb)]
      have h4 : (br + 1) * 2 ^ pb = br * 2 ^ pb + 2 ^ pb := by ring
      omega
    · rw [Nat.and_two_pow_sub_one_eq_mod, hmod, accessAt, hpc, Option.bind_some, g3, hqp]
    · rw [Nat.shiftRight_eq_div_pow, hdiv, accessAt, hbc, Option.bind_some, b3, hqb]

end Quant
end Tongrams
