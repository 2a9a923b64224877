import Verif.ArpaData

/-!
# trie_prob_lm (trie_prob_lm.hpp, score.hpp): building a backoff model as a reversed trie, and scoring with it
-/

set_option linter.unusedSectionVars false

namespace Tongrams

/-- `trie_prob_lm`, members: trie_prob_lm.hpp:353-360 (`pb` is the number of bits of the probability ranks, which
`quantization_bits` gives back, sequence_collections.hpp). -/
structure TrieProb (K F : Type) where
  order : Nat
  ro : Nat
  unk : F
  voc : DVTable K 64
  arrs : List SortedArray
  ps : List (List F)
  bs : List (List F)
  pb : Nat

/-- What the float functions of the library are to the model: `enc`, `dec` are the bits of a float and the float of these
bits. -/
structure FloatBits (F : Type) where
  enc : F → BitVec 32
  dec : BitVec 32 → F

/-- `build_vocabulary`, the table (trie_prob_lm.hpp:148-149, 167-200): the `id`-th unigram is mapped to `id` and to its
packed values. -/
def buildProbVocab {K F : Type} (fb : FloatBits F) (hv : Mphf K 64) (words : List K) (vals : List (F × F)) : Option (DVTable K 64) :=
  (CVBuilder.new words.length (ceilLog2 (BitVec.ofNat 64 (words.length + 1)))).bind fun ib =>
  (ib.fill ((List.range words.length).map (BitVec.ofNat 64))).bind fun ib =>
  (CVBuilder.new words.length 64).bind fun vb =>
  (vb.fill (vals.map fun v => pack (fb.enc v.1) (fb.enc v.2))).bind fun vb =>
  DVTable.build hv words (CompactVector.ofBuilder ib) (CompactVector.ofBuilder vb)

/-- The `<unk>` test of `build_vocabulary` (trie_prob_lm.hpp:157-163, mph_prob_lm.hpp:148-158), over the unigrams in order. -/
def findUnk {K F : Type} [DecidableEq K] [DecidableEq F] (unkWord : K) (default : F) (f0 : List (List K × F × F)) (unk : F) : F :=
  f0.foldl (fun u r => if r.1 = [unkWord] ∧ u = default then r.2.1 else u) unk

namespace TrieProb
variable {K F : Type} [DecidableEq K] [FloatArith F]

/-- The ranks added by `build_ngrams` for each n-gram of each order from 2 (trie_prob_lm.hpp:276-287); `k` is the
index of the first order of the list. -/
def rankLevels (ps bs : List (List F)) (pb order : Nat) : Nat → List (List (List K × F × F)) → Option (List (List Nat))
  | _, [] => some []
  | k, f :: fs => (f.mapM fun r => Quant.rankPair ps bs pb order k r.2.1 r.2.2).bind fun l =>
      (rankLevels ps bs pb order (k + 1) fs).map (l :: ·)

/-- `trie_prob_lm::builder` (trie_prob_lm.hpp:20-108, 139-294).  `data` lists the sections of the ARPA file up to the
order of the model.  Simplification: the ranks of all orders are computed before the levels are built.  Reading the file
is not modelled here. -/
def build (fb : FloatBits F) (sort : List F → List F) (negInf : F) (unkWord : K) (default : F) (hv : Mphf K 64) (G : GramsImpl)
    (R : RanksImpl) (ro : Nat) (unk : F) (pb bb : Nat) (data : List (List (List K × F × F))) : Res (TrieProb K F) :=
  if data.length < 2 ∨ maxOrder < data.length ∨ 2 < ro then some (.error ()) else
  Res.bind (Quant.codebooks sort negInf pb bb data) fun cb =>
  Res.bind (Res.lift data.head?) fun f0 =>
  Res.bind (Res.lift (buildProbVocab fb hv (f0.filterMap (·.1.head?)) (f0.map (·.2)))) fun t =>
  Res.bind (Res.lift (rankLevels cb.1 cb.2 pb data.length 1 data.tail)) fun rks =>
  Res.bind (buildLevels G R (fun w => (t.lookupPair w).map fun p => p.1.toNat) false ro f0.length 1 (f0.map (·.1.reverse))
    ((data.tail.map (·.map (·.1.reverse))).zip (rks.zip ((List.range data.tail.length).map fun i => pb + if i + 2 = data.length then 0 else bb)))
    (data.map fun f => SortedArray.new f.length)) fun arrs =>
  some (.ok { order := data.length, ro := ro, unk := findUnk unkWord default f0 unk, voc := t, arrs := arrs, ps := cb.1, bs := cb.2, pb := pb })

/-- The range of the successors, `prev_id` and `prev_prev_id` (score.hpp:33-36). -/
structure Cursor where
  range : Nat × Nat
  prev : Nat
  prevPrev : Nat

/-- The parts of `trie_prob_lm::score` (score.hpp:12-82) that are specific to the trie. -/
def scorer (fb : FloatBits F) (t : TrieProb K F) : Scorer K Nat F Cursor where
  order := t.order
  unk := t.unk
  first k := (t.voc.lookupPair k).bind fun p =>
    if p.1.toNat = NF then some (NF, none) else
    (t.arrs[0]?).bind fun a => (a.range p.1.toNat).map fun r =>
      (p.1.toNat, some (fb.dec (unpack p.2).1, fb.dec (unpack p.2).2, ⟨r, p.1.toNat, p.1.toNat⟩))
  next j c x :=
    if c.range.2 - c.range.1 = 0 then some none else
    (if t.ro ≠ 0 ∧ t.ro < j then mapId t.arrs t.ro c.prev c.prevPrev x else some x).bind fun id =>
    (t.arrs[j]?).bind fun a => (a.position c.range id).bind fun pos =>
    if pos = NF then some none else
    (a.ranks pos).bind fun rk => (Quant.accessAt t.ps (j - 1) (rk &&& (2 ^ t.pb - 1))).bind fun p =>
    if j ≠ t.order - 1 then
      (Quant.accessAt t.bs (j - 1) (rk >>> t.pb)).bind fun b => (a.range pos).map fun r => some (p, some b, ⟨r, x, c.prev⟩)
    else some (some (p, none, ⟨c.range, x, c.prev⟩))

end TrieProb

/-- Specification: the input of a backoff trie: ARPA sections, sorted by the vocabulary ids of their words from the last to
the first; the vocabulary is `U`. -/
structure Spec.ProbFiles {K F : Type} [DecidableEq K] (U : List K) (data : List (List (List K × F × F))) (ro : Nat) : Prop where
  arpa : Spec.ArpaFiles data
  trie : Spec.TrieData U (data.map (·.map (·.1.reverse))) ro
  remapping : ro ≤ 2
  size : ∀ f ∈ data, f.length * U.length < 2 ^ 56

/-- Specification: the probability given to unknown words: the one asked for, unless it is the default and the word
`<unk>` is listed. -/
def Spec.unkProb {K F : Type} [DecidableEq K] [DecidableEq F] (unkWord : K) (default : F) (f0 : List (List K × F × F)) (unk : F) : F :=
  if unk = default then ((f0.find? fun r => decide (r.1 = [unkWord])).map (·.2.1)).getD default else unk

/-- A word of the vocabulary, or one that the vocabulary table recognises as absent (see C23): it is not mapped to the slot behind the last one, and
its hash key differs from that of the word whose slot it is mapped to. -/
def Spec.Recognised {K : Type} {B : Nat} (hv : Mphf K B) (U : List K) (w : K) : Prop :=
  w ∈ U ∨ (hv.lookup w ≠ some U.length ∧ ∀ u ∈ U, hv.lookup u = hv.lookup w → Mphf.mix (hv.hasher w) ≠ Mphf.mix (hv.hasher u))

/-! ## Proofs -/

theorem findUnk_spec {K F : Type} [DecidableEq K] [DecidableEq F] (unkWord : K) (default : F) (f0 : List (List K × F × F)) (unk : F)
    (hd : (f0.map (·.1)).Nodup) : findUnk unkWord default f0 unk = Spec.unkProb unkWord default f0 unk := by
  have hkeep : ∀ (f : List (List K × F × F)) (u : F), [unkWord] ∉ f.map (·.1) → findUnk unkWord default f u = u := by
    intro f
    induction f with
    | nil => intro u _; rfl
    | cons r f ih =>
      intro u hn
      rw [List.map_cons, List.mem_cons, not_or] at hn
      rw [findUnk, List.foldl_cons, if_neg (fun h => hn.1 h.1.symm)]
      exact ih u hn.2
  have hne : ∀ (f : List (List K × F × F)) (u : F), u ≠ default → findUnk unkWord default f u = u := by
    intro f
    induction f with
    | nil => intro u _; rfl
    | cons r f ih =>
      intro u hu
      rw [findUnk, List.foldl_cons, if_neg (fun h => hu h.2)]
      exact ih u hu
  unfold Spec.unkProb
  split
  · rename_i hu
    subst hu
    induction f0 with
    | nil => rfl
    | cons r f ih =>
      rw [List.map_cons, List.nodup_cons] at hd
      rw [findUnk, List.foldl_cons, List.find?_cons]
      by_cases hr : r.1 = [unkWord]
      · rw [if_pos ⟨hr, rfl⟩, decide_eq_true hr]
        exact hkeep f _ (hr ▸ hd.1)
      · rw [if_neg (fun h => hr h.1), decide_eq_false hr]
        exact ih hd.2
  · rename_i hu
    exact hne f0 unk hu

namespace TrieProb
open Trie TrieCount
variable {K F : Type} [DecidableEq K] [FloatArith F]

theorem probVocab_ok (fb : FloatBits F) {hv : Mphf K 64} {U : List K} (hb : hv.BuiltFrom U) (hne : U ≠ []) (hnd : U.Nodup)
    (hn : U.length < 2 ^ 57) {vals : List (F × F)} (hl : vals.length = U.length) :
    ∃ t, buildProbVocab fb hv U vals = some t ∧
      (∀ (i : Nat) (w : K) (v : F × F), U[i]? = some w → vals[i]? = some v → ∃ x, t.lookupPair w = some (x, pack (fb.enc v.1) (fb.enc v.2)) ∧ x.toNat = U.idxOf w) ∧
      (∀ x, hv.lookup x ≠ some U.length → (∀ u ∈ U, hv.lookup u = hv.lookup x → Mphf.mix (hv.hasher x) ≠ Mphf.mix (hv.hasher u)) →
        t.lookupPair x = some (notFound, notFound)) := by
  have hc := ceilLog2_spec (BitVec.ofNat 64 (U.length + 1))
  rw [BitVec.toNat_ofNat, Nat.mod_eq_of_lt (by omega)] at hc
  obtain ⟨b, b', e1, e2, hh, -, hw⟩ := CompactVector.fill_holds (ceilLog2 (BitVec.ofNat 64 (U.length + 1))) hc.2.2
    ((List.range U.length).map (BitVec.ofNat 64)) (by
      intro v hm
      obtain ⟨x, hx, rfl⟩ := List.mem_map.1 hm
      rw [List.mem_range] at hx
      rw [BitVec.toNat_ofNat, Nat.mod_eq_of_lt (by omega)]; omega)
  rw [List.length_map, List.length_range] at e1
  obtain ⟨c, c', f1, f2, gg, -, gw⟩ := CompactVector.fill_holds 64 (Nat.le_refl _)
    (vals.map fun v => pack (fb.enc v.1) (fb.enc v.2)) (fun v _ => v.isLt)
  rw [List.length_map, hl] at f1
  obtain ⟨t, ht, h1, h2⟩ := C23_double_valued hb hne (.inr rfl) hh gg (by simp) (by simp [hl])
  refine ⟨t, ?_, ?_, ?_⟩
  · unfold buildProbVocab
    rw [e1, Option.bind_some, e2, Option.bind_some, f1, Option.bind_some, f2, Option.bind_some, ht]
  · intro i w v hw hv
    obtain ⟨hi, rfl⟩ := List.getElem?_eq_some_iff.1 hw
    obtain ⟨hi', rfl⟩ := List.getElem?_eq_some_iff.1 hv
    refine ⟨_, by rw [(h1 i hi).1, List.getElem_map (f := fun v : F × F => pack (fb.enc v.1) (fb.enc v.2))], ?_⟩
    rw [List.getElem_map, List.getElem_range, BitVec.toNat_ofNat, Nat.mod_eq_of_lt (by omega), List.Nodup.idxOf_getElem hnd i hi]
  · intro x hx hmix
    obtain ⟨p, hp, hle⟩ := Mphf.BuiltFrom.lookup_le hb hne x
    have hlt : p < U.length := by
      rcases Nat.lt_or_ge p U.length with h | h
      · exact h
      · exact absurd (by rw [hp]; congr 1; omega) hx
    obtain ⟨i, hi, h5, h4, -⟩ := h2 x p hp hlt
    exact (h4 (hmix _ (List.getElem_mem hi) (by rw [h5, hp]))).1

theorem rankLevels_ok {data : List (List (List K × F × F))} {pb bb : Nat} {ps bs : List (List F)} (hc : Quant.Codes data pb bb ps bs)
    (k : Nat) (fs : List (List (List K × F × F))) (hfs : data.drop (k + 1) = fs) :
    ∃ rks, rankLevels ps bs pb data.length (k + 1) fs = some rks ∧ rks.length = fs.length ∧
      ∀ (i : Nat) f rs, fs[i]? = some f → rks[i]? = some rs → rs.length = f.length ∧
        ∀ (j : Nat) r, f[j]? = some r → ∃ rk, rs[j]? = some rk ∧ Quant.rankPair ps bs pb data.length (k + i + 1) r.2.1 r.2.2 = some rk := by
  induction fs generalizing k with
  | nil => exact ⟨[], rfl, rfl, by simp⟩
  | cons f fs ih =>
    have hf : data[k + 1]? = some f := by rw [← List.head?_drop, hfs]; rfl
    have hm : ∀ (l : List (List K × F × F)), (∀ r ∈ l, r ∈ f) →
        ∃ rs, l.mapM (fun r => Quant.rankPair ps bs pb data.length (k + 1) r.2.1 r.2.2) = some rs ∧ rs.length = l.length ∧
        ∀ (j : Nat) r, l[j]? = some r → ∃ rk, rs[j]? = some rk ∧ Quant.rankPair ps bs pb data.length (k + 1) r.2.1 r.2.2 = some rk := by
      intro l
      induction l with
      | nil => intro _; exact ⟨[], rfl, rfl, by simp⟩
      | cons a l ih =>
        intro hl
        obtain ⟨rs, e1, e2, e3⟩ := ih (fun r hr => hl r (List.mem_cons_of_mem _ hr))
        obtain ⟨rk, g1, -⟩ := Quant.rankPair_ok hc hf (hl a List.mem_cons_self)
        refine ⟨rk :: rs, by rw [List.mapM_cons, g1]; simp [e1], by simp [e2], ?_⟩
        intro j r hr
        cases j with
        | zero => simp only [List.getElem?_cons_zero, Option.some.injEq] at hr; subst hr; exact ⟨rk, rfl, g1⟩
        | succ j => exact e3 j r (by simpa using hr)
    obtain ⟨rs, e1, e2, e3⟩ := hm f (fun r hr => hr)
    obtain ⟨rks, g1, g2, g3⟩ := ih (k + 1) (by rw [← List.tail_drop, hfs]; rfl)
    refine ⟨rs :: rks, by rw [rankLevels, e1, Option.bind_some, g1, Option.map_some], by simp [g2], ?_⟩
    intro i f' rs' h1 h2
    cases i with
    | zero =>
      simp only [List.getElem?_cons_zero, Option.some.injEq] at h1 h2
      subst h1 h2
      exact ⟨e2, e3⟩
    | succ i =>
      have := g3 i f' rs' (by simpa using h1) (by simpa using h2)
      rw [show k + (i + 1) + 1 = k + 1 + i + 1 by omega]
      exact this

/-- What the construction establishes. -/
structure Good (ex : List K → Nat → Prop) (fb : FloatBits F) (hv : Mphf K 64) (U : List K) (data : List (List (List K × F × F))) (ro pb : Nat) (ps bs : List (List F))
    (t : TrieProb K F) : Prop where
  order : t.order = data.length
  ro_eq : t.ro = ro
  voc : ∀ f0, data[0]? = some f0 → ∀ r ∈ f0, ∀ w, r.1 = [w] → ∃ x, t.voc.lookupPair w = some (x, pack (fb.enc r.2.1) (fb.enc r.2.2)) ∧ x.toNat = U.idxOf w
  vocN : ∀ x, hv.lookup x ≠ some U.length → (∀ u ∈ U, hv.lookup u = hv.lookup x → Mphf.mix (hv.hasher x) ≠ Mphf.mix (hv.hasher u)) →
    t.voc.lookupPair x = some (notFound, notFound)
  ps_eq : t.ps = ps
  bs_eq : t.bs = bs
  pb_eq : t.pb = pb
  built : ∃ rks : List (List Nat), rks.length + 1 = data.length ∧
    Built ex U (data.map (·.map (·.1.reverse))) ro rks t.arrs (data.length - 1) ∧
    ∀ (k : Nat) f rs, data[k + 1]? = some f → rks[k]? = some rs → ∀ (j : Nat) r, f[j]? = some r →
      ∃ rk, rs[j]? = some rk ∧ Quant.rankPair ps bs pb data.length (k + 1) r.2.1 r.2.2 = some rk

/-- The same files as data of a trie of counts: what the trie structure depends on. -/
def asCounts (data : List (List (List K × F × F))) : List (List (List K × Nat)) := data.map (·.map fun r => (r.1.reverse, 0))

theorem asCounts_map (data : List (List (List K × F × F))) : (asCounts data).map (·.map (·.1)) = data.map (·.map (·.1.reverse)) := by
  unfold asCounts
  rw [List.map_map]
  apply List.map_congr_left
  intro f _
  simp

theorem asCounts_ok {U : List K} {data : List (List (List K × F × F))} {ro : Nat} (h : Spec.ProbFiles U data ro) :
    Spec.CountFiles U (asCounts data) ro where
  data := by rw [asCounts_map]; exact h.trie
  order_min := by unfold asCounts; rw [List.length_map]; exact h.arpa.order_min
  order_max := by unfold asCounts; rw [List.length_map]; exact h.arpa.order_max
  remapping := h.remapping
  counts := by
    intro f hf r hr
    unfold asCounts at hf
    obtain ⟨f', -, rfl⟩ := List.mem_map.1 hf
    obtain ⟨r', -, rfl⟩ := List.mem_map.1 hr
    simp
  size := by
    intro f hf
    unfold asCounts at hf
    obtain ⟨f', hf', rfl⟩ := List.mem_map.1 hf
    rw [List.length_map]; exact h.size f' hf'

theorem build_any (fb : FloatBits F) {sort : List F → List F} (negInf : F) (unkWord : K) (default unk : F) {hv : Mphf K 64} {U : List K}
    {data : List (List (List K × F × F))} {ro pb bb : Nat} (h : Spec.ProbFiles U data ro) (hb : hv.BuiltFrom U) {G : GramsImpl}
    {ex : List K → Nat → Prop}
    (hG : ∀ (k : Nat) (prev curr : List (List K)), (data.map (·.map (·.1.reverse)))[k]? = some prev →
      (data.map (·.map (·.1.reverse)))[k + 1]? = some curr →
      G.Exact (exAt ex prev) (k + 2) (curr.map (Spec.storedId U ((data.map (·.map (·.1.reverse))).getD ro []) ro)) (Spec.childPtrs List.dropLast curr prev))
    {J : RanksImpl} (hJ : ∀ (k : Nat) (f : List (List K × F × F)) (rs : List Nat), data[k + 1]? = some f → rs.length = f.length →
      (∀ r ∈ rs, r < 2 ^ 58) → J.Exact (k + 2) rs) (hbits : pb + bb ≤ 58)
    {ps bs : List (List F)} (hcb : Quant.codebooks sort negInf pb bb data = some (.ok (ps, bs))) (hc : Quant.Codes data pb bb ps bs) :
    ∃ t, build fb sort negInf unkWord default hv G J ro unk pb bb data = some (.ok t) ∧
      Good ex fb hv U data ro pb ps bs t ∧ ∀ f0, data[0]? = some f0 → t.unk = findUnk unkWord default f0 unk := by
  obtain ⟨f0, fs, rfl⟩ : ∃ f0 fs, data = f0 :: fs := by
    cases data with
    | nil => have := h.arpa.order_min; simp at this
    | cons a l => exact ⟨a, l, rfl⟩
  have hT := h.trie
  have hf0 : f0.map (·.1.reverse) = U.map fun w => [w] := by simpa using hT.unigrams
  have hUl : U.length = f0.length := by
    have := congrArg List.length hf0; simpa using this.symm
  have hUne : U ≠ [] := by
    have := hT.nonempty 0 _ hT.unigrams
    intro h; rw [h] at this; exact this rfl
  have hU57 : ∀ f ∈ f0 :: fs, f.length < 2 ^ 57 := by
    intro f hf
    have h1 := h.size f hf
    have h3 : f.length * 1 ≤ f.length * U.length := Nat.mul_le_mul_left _ (List.length_pos_iff.2 hUne)
    omega
  have hfu : ∀ (i : Nat) r, f0[i]? = some r → ∃ w, r.1 = [w] ∧ U[i]? = some w := by
    intro i r hr
    have := congrArg (fun l => l[i]?) hf0
    simp only [List.getElem?_map, hr, Option.map_some] at this
    obtain ⟨w, hw, e⟩ := Option.map_eq_some_iff.1 this.symm
    refine ⟨w, ?_, hw⟩
    have := congrArg List.reverse e
    simpa using this.symm
  have hfm : f0.filterMap (fun x => x.1.head?) = U := by
    have e0 : f0.map (·.1) = U.map fun w => [w] := by
      have := congrArg (List.map List.reverse) hf0
      simpa [List.map_map, Function.comp_def] using this
    have : f0.filterMap (fun x => x.1.head?) = (f0.map (·.1)).filterMap List.head? := by rw [List.filterMap_map]; rfl
    rw [this, e0, List.filterMap_map]
    have e : (List.head? ∘ fun w : K => [w]) = some := by funext w; rfl
    rw [e, List.filterMap_some]
  obtain ⟨tv, tv1, tv2, tv3⟩ := probVocab_ok fb hb hUne hT.nodup (by rw [hUl]; exact hU57 f0 List.mem_cons_self)
    (vals := f0.map (·.2)) (by rw [List.length_map, hUl])
  obtain ⟨rks, k1, k2, k3⟩ := rankLevels_ok hc 0 fs rfl
  have hvoc : ∀ w ∈ U, ((tv.lookupPair w).map fun p => p.1.toNat) = some (U.idxOf w) := by
    intro w hw
    obtain ⟨i, hi, rfl⟩ := List.mem_iff_getElem.1 hw
    obtain ⟨x, hx, hx2⟩ := tv2 i U[i] (f0[i]'(by omega)).2 (List.getElem?_eq_getElem hi)
      (by rw [List.getElem?_map, List.getElem?_eq_getElem (by omega)]; rfl)
    rw [hx, Option.map_some, hx2]
  have hlen1 : fs.length ≥ 1 := by have := h.arpa.order_min; simp at this; omega
  have hrks : ∀ (k : Nat) rs, rks[k]? = some rs → ∀ r ∈ rs, r < 2 ^ (pb + if k + 2 = (f0 :: fs).length then 0 else bb) := by
    intro k rs hk r hr
    have hkl : k < fs.length := by rw [← k2]; exact (List.getElem?_eq_some_iff.1 hk).1
    obtain ⟨l1, l2⟩ := k3 k fs[k] rs (List.getElem?_eq_getElem hkl) hk
    obtain ⟨j, hj, rfl⟩ := List.mem_iff_getElem.1 hr
    obtain ⟨rk, m1, m2⟩ := l2 j (fs[k][j]'(by omega)) (List.getElem?_eq_getElem _)
    rw [List.getElem?_eq_getElem hj] at m1
    cases m1
    obtain ⟨rk', n1, n2, -⟩ := Quant.rankPair_ok hc (k := k) (f := fs[k]) (by simp [List.getElem?_eq_getElem hkl]) (List.getElem_mem (show j < fs[k].length by omega))
    rw [show 0 + k + 1 = k + 1 by omega, n1] at m2
    cases m2
    exact n2
  have hwid : ∀ (k : Nat), pb + (if k + 2 = (f0 :: fs).length then 0 else bb) ≤ 58 := by intro k; split <;> omega
  obtain ⟨arrs, a1, a2, a3, a4⟩ := buildLevels_ok (ex := ex) (voc := fun w => (tv.lookupPair w).map fun p => p.1.toNat) (check := false) hT h.remapping
    (by
      intro k l hl
      rw [List.getElem?_map] at hl
      obtain ⟨f, hf, rfl⟩ := Option.map_eq_some_iff.1 hl
      have := hU57 f (List.mem_of_getElem? hf)
      rw [List.length_map]; unfold NF; omega)
    (rks := rks) (ws := (List.range fs.length).map fun i => pb + if i + 2 = (f0 :: fs).length then 0 else bb) (by simp [k2]) (by simp [k2])
    (by
      intro k rs w g1 g2
      rw [List.getElem?_map] at g2
      obtain ⟨i, hi, rfl⟩ := Option.map_eq_some_iff.1 g2
      obtain ⟨hi1, rfl⟩ := List.getElem?_eq_some_iff.1 hi
      rw [List.getElem_range]
      exact ⟨by have := hwid k; omega, hrks k rs g1⟩)
    (fun w hw => hvoc w hw)
    hG
    (by
      intro k rs g1
      have hkl : k < fs.length := by rw [← k2]; exact (List.getElem?_eq_some_iff.1 g1).1
      exact hJ k fs[k] rs (by simp [List.getElem?_eq_getElem hkl]) (k3 k fs[k] rs (List.getElem?_eq_getElem hkl) g1).1
        (fun r hr => Nat.lt_of_lt_of_le (hrks k rs g1 r hr) (Nat.pow_le_pow_right (by omega) (hwid k))))
    0 (f0.map (·.1.reverse)) (by simp) ((f0 :: fs).map fun f => SortedArray.new f.length)
    (by simp) (by intro k hk; omega)
  refine ⟨{ order := (f0 :: fs).length, ro := ro, unk := findUnk unkWord default f0 unk, voc := tv, arrs := arrs, ps := ps, bs := bs, pb := pb }, ?_, ?_, ?_⟩
  · have h2 := h.arpa.order_min
    have h8 := h.arpa.order_max
    have hro := h.remapping
    unfold build
    rw [if_neg (by unfold maxOrder; omega), hcb, Res.bind_ok]
    simp only [List.head?_cons, List.tail_cons, Res.lift_some, Res.bind_ok]
    rw [hfm, tv1, Res.lift_some, Res.bind_ok, k1, Res.lift_some, Res.bind_ok]
    have a1' := a1
    simp only [List.map_cons, List.drop_succ_cons, List.drop_zero, hUl] at a1'
    rw [List.map_cons, a1', Res.bind_ok]
  · refine ⟨rfl, rfl, ?_, tv3, rfl, rfl, rfl, rks, by simp [k2], ?_, ?_⟩
    · intro g hg r hr w hw
      cases hg
      obtain ⟨i, hi, rfl⟩ := List.mem_iff_getElem.1 hr
      obtain ⟨w', hw', hu⟩ := hfu i f0[i] (List.getElem?_eq_getElem hi)
      rw [hw] at hw'; cases hw'
      exact tv2 i w f0[i].2 hu (by rw [List.getElem?_map, List.getElem?_eq_getElem hi]; rfl)
    · rw [List.length_map] at a2; exact a2
    · intro k f rs g1 g2 j r hr
      have := (k3 k f rs (by simpa using g1) g2).2 j r hr
      rwa [show 0 + k + 1 = k + 1 by omega] at this
  · intro g hg
    cases hg; rfl

theorem build_grams (fb : FloatBits F) {sort : List F → List F} (negInf : F) (unkWord : K) (default unk : F) {hv : Mphf K 64} {U : List K}
    {data : List (List (List K × F × F))} {ro pb bb : Nat} (h : Spec.ProbFiles U data ro) (hb : hv.BuiltFrom U) {G : GramsImpl}
    {ex : List K → Nat → Prop}
    (hG : ∀ (k : Nat) (prev curr : List (List K)), (data.map (·.map (·.1.reverse)))[k]? = some prev →
      (data.map (·.map (·.1.reverse)))[k + 1]? = some curr →
      G.Exact (exAt ex prev) (k + 2) (curr.map (Spec.storedId U ((data.map (·.map (·.1.reverse))).getD ro []) ro)) (Spec.childPtrs List.dropLast curr prev))
    {junk : Nat → List W} (hj : ∀ k, junk k ≠ []) (hbits : pb + bb ≤ 58)
    {ps bs : List (List F)} (hcb : Quant.codebooks sort negInf pb bb data = some (.ok (ps, bs))) (hc : Quant.Codes data pb bb ps bs) :
    ∃ t, build fb sort negInf unkWord default hv G (RanksImpl.cv junk) ro unk pb bb data = some (.ok t) ∧
      Good ex fb hv U data ro pb ps bs t ∧ ∀ f0, data[0]? = some f0 → t.unk = findUnk unkWord default f0 unk :=
  build_any fb negInf unkWord default unk h hb hG (fun _ _ _ _ _ hr => TrieImpl.cv_exact (hj _) hr) hbits hcb hc

theorem build_ok (fb : FloatBits F) {sort : List F → List F} (negInf : F) (unkWord : K) (default unk : F) {hv : Mphf K 64} {U : List K}
    {data : List (List (List K × F × F))} {ro pb bb : Nat} (h : Spec.ProbFiles U data ro) (hb : hv.BuiltFrom U) {hr : Nat → Mphf Nat 64}
    (hh : Spec.RangeHashes hr (asCounts data)) {junk : Nat → List W} (hj : ∀ k, junk k ≠ []) (hbits : pb + bb ≤ 58)
    {ps bs : List (List F)} (hcb : Quant.codebooks sort negInf pb bb data = some (.ok (ps, bs))) (hc : Quant.Codes data pb bb ps bs) :
    ∃ t, build fb sort negInf unkWord default hv (GramsImpl.fastEF hr) (RanksImpl.cv junk) ro unk pb bb data = some (.ok t) ∧
      Good (fun _ _ => True) fb hv U data ro pb ps bs t ∧ ∀ f0, data[0]? = some f0 → t.unk = findUnk unkWord default f0 unk :=
  build_grams fb negInf unkWord default unk h hb
    (by
      intro k prev curr g1 g2
      rw [← asCounts_map] at g1 g2 ⊢
      exact fastEF_levels (asCounts_ok h) hh k prev curr g1 g2) hj hbits hcb hc

/-- The loop data after matching `g` (most recent word first). -/
def IsCur (U : List K) (levels : List (List (List K))) (t : TrieProb K F) (g : List K) (c : Cursor) : Prop :=
  ∃ (j : Nat) (l : List (List K)), levels[g.length - 1]? = some l ∧ l[j]? = some g ∧
    (g.length < levels.length → ∃ a, t.arrs[g.length - 1]? = some a ∧ a.pair j = some c.range) ∧
    g.getLast?.map U.idxOf = some c.prev ∧ (2 ≤ g.length → g.dropLast.getLast?.map U.idxOf = some c.prevPrev)

section
variable {ex : List K → Nat → Prop} {fb : FloatBits F} {hv : Mphf K 64} {U : List K} {data : List (List (List K × F × F))} {ro pb bb : Nat} {ps bs : List (List F)}
  {t : TrieProb K F}

theorem data_level {k : Nat} {f : List (List K × F × F)} (hf : data[k]? = some f) :
    (data.map (·.map (·.1.reverse)))[k]? = some (f.map (·.1.reverse)) := by rw [List.getElem?_map, hf]; rfl

theorem level_sz (h : Spec.ProbFiles U data ro) (k : Nat) (l : List (List K)) (hl : (data.map (·.map (·.1.reverse)))[k]? = some l) :
    l.length < NF := by
  have hUne : U ≠ [] := by
    have := h.trie.nonempty 0 _ h.trie.unigrams
    intro h; rw [h] at this; exact this rfl
  rw [List.getElem?_map] at hl
  obtain ⟨f, hf, rfl⟩ := Option.map_eq_some_iff.1 hl
  have h1 := h.size f (List.mem_of_getElem? hf)
  have h3 : f.length * 1 ≤ f.length * U.length := Nat.mul_le_mul_left _ (List.length_pos_iff.2 hUne)
  rw [List.length_map]; unfold NF; omega

theorem U_lt (h : Spec.ProbFiles U data ro) {w : K} (hw : w ∈ U) : U.idxOf w < NF := by
  have h1 := List.idxOf_lt_length_of_mem hw
  have h2 := level_sz h 0 _ h.trie.unigrams
  rw [List.length_map] at h2; omega

theorem entry_unigram (h : Spec.ProbFiles U data ro) {unk : F} {qp qb : Nat → F → F} {k : K}
    (he : ((Spec.Arpa.ofData data unk qp qb).entry [k]).isSome) : k ∈ U := by
  obtain ⟨f, r, hf, hr, hrg, -⟩ := ArpaData.entry_some data unk qp qb he
  have := h.trie.words 0 _ (data_level hf) r.1.reverse (List.mem_map_of_mem hr) k (by rw [hrg]; simp)
  exact this

/-- The id looked for at the next order. -/
theorem next_id (h : Spec.ProbFiles U data ro) (hg : Good ex fb hv U data ro pb ps bs t) {g : List K} {x : K} {c : Cursor}
    (hc : IsCur U (data.map (·.map (·.1.reverse))) t g c) (hg0 : g ≠ []) (hgl : g.length < data.length) (hx : x ∈ U)
    (hch : ∃ q ∈ (data.map (·.map (·.1.reverse))).getD g.length [], q.dropLast = g)
    (hex : ro ≠ 0 → ro < g.length → (g ++ [x]).drop (g.length - ro) ∉ (data.map (·.map (·.1.reverse))).getD ro [] →
      ex (g.drop (g.length - ro)) (U.idxOf x)) :
    (if t.ro ≠ 0 ∧ t.ro < g.length then mapId t.arrs t.ro c.prev c.prevPrev (U.idxOf x) else some (U.idxOf x)) =
      some (if ro = 0 ∨ g.length ≤ ro ∨ (g ++ [x]).drop (g.length - ro) ∈ (data.map (·.map (·.1.reverse))).getD ro [] then
        Spec.storedId U ((data.map (·.map (·.1.reverse))).getD ro []) ro (g ++ [x]) else NF) := by
  obtain ⟨rks, hrk, hB, -⟩ := hg.built
  obtain ⟨j, l, hl, hlj, -, hp, hpp⟩ := hc
  rw [hg.ro_eq]
  have hT := h.trie
  have hlast : (g ++ [x]).getLast? = some x := by simp
  by_cases hc : ro ≠ 0 ∧ ro < g.length
  · obtain ⟨hro0, hrog⟩ := hc
    rw [if_pos ⟨hro0, hrog⟩]
    generalize hlv : data.map (·.map (·.1.reverse)) = levels at *
    have hll : levels.length = data.length := by rw [← hlv, List.length_map]
    have hlr : levels[ro]? = some (levels[ro]'(by omega)) := List.getElem?_eq_getElem _
    have hls : levels[ro - 1]? = some (levels[ro - 1]'(by omega)) := List.getElem?_eq_getElem _
    have hcl : levels[g.length]? = some (levels[g.length]'(by omega)) := List.getElem?_eq_getElem _
    obtain ⟨q, hq, hqd⟩ := hch
    rw [getD_eq hcl] at hq
    have hql := hT.len _ _ hcl q hq
    have hqr : q.drop (g.length - ro) ∈ levels[ro]'(by omega) := by
      refine drop_mem hT hro0 (d := g.length - ro) ?_ hlr hq
      rw [← hcl]; congr 1; omega
    have hqs : (q.drop (g.length - ro)).dropLast = g.drop (g.length - ro) := by
      have e : g = q.take (q.length - 1) := by rw [← hqd, List.dropLast_eq_take]
      rw [List.dropLast_eq_take, List.length_drop, List.take_drop]
      rw [show g.length - ro + (q.length - (g.length - ro) - 1) = q.length - 1 by omega, ← e]
    have hs : g.drop (g.length - ro) ∈ levels[ro - 1]'(by omega) := by
      rw [← hqs]
      exact hT.prefix_closed (ro - 1) _ _ hls (by rw [← hlr]; congr 1; omega) _ hqr
    have hdr : (g ++ [x]).drop (g.length - ro) = g.drop (g.length - ro) ++ [x] := List.drop_append_of_le_length (by omega)
    have hm := mapId_spec hT (rks := rks) (by rw [hll]; exact hrk) (ex := ex) (arrs := t.arrs) (ro := ro)
      (fun k hk => hB k (by omega)) (by have := h.remapping; omega) hls hlr (fun k l hl => by subst hlv; exact level_sz h k l hl) hs
      ⟨_, hqr, hqs⟩ hx (p := c.prev) (pp := c.prevPrev)
      (by rw [← hp, List.getLast?_drop, if_neg (by omega)])
      (by
        intro h2
        subst h2
        rw [← hpp (by omega), List.head?_drop, List.getLast?_eq_getElem?, List.length_dropLast, List.getElem?_dropLast, if_pos (by omega)]
        rfl) (fun hn => hex hro0 hrog (by rw [hdr, getD_eq hlr]; exact hn))
    rw [hm, getD_eq hlr, hdr]
    by_cases hmem : g.drop (g.length - ro) ++ [x] ∈ levels[ro]'(by omega)
    · rw [if_pos hmem, if_pos (.inr (.inr hmem)), Spec.storedId, if_neg (by simp; omega), List.length_append, List.length_singleton,
        show g.length + 1 - (ro + 1) = g.length - ro by omega, hdr]
    · rw [if_neg hmem, if_neg (by rintro (h | h | h); · omega
                                  · omega
                                  · exact hmem h)]
  · rw [if_neg hc, if_pos (by omega), Spec.storedId, if_pos (by simp; omega), hlast]; rfl

theorem entry_gram (h : Spec.ProbFiles U data ro) {unk : F} {qp qb : Nat → F → F} {g : List K} {x : K} {p b : F} (hg0 : g ≠ [])
    (he : (Spec.Arpa.ofData data unk qp qb).entry (x :: g.reverse) = some (p, b)) :
    ∃ (f : List (List K × F × F)) (i : Nat) (r : List K × F × F), data[g.length]? = some f ∧ f[i]? = some r ∧ r.1.reverse = g ++ [x] ∧ p = qp (g.length + 1) r.2.1 ∧ b = qb (g.length + 1) r.2.2 := by
  obtain ⟨f, r, hf, hr, hrg, -⟩ := ArpaData.entry_some data unk qp qb (by rw [he]; rfl)
  have hlen : (x :: g.reverse).length = g.length + 1 := by simp
  rw [hlen, Nat.add_sub_cancel] at hf
  obtain ⟨i, hi, rfl⟩ := List.mem_iff_getElem.1 hr
  have := ArpaData.entry_eq data unk qp qb h.arpa hf (List.getElem?_eq_getElem hi)
  have hpos := List.length_pos_iff.2 hg0
  rw [hrg, he, hlen, if_neg (by omega)] at this
  have hpe := Prod.mk.inj (Option.some.inj this)
  exact ⟨f, i, f[i], hf, List.getElem?_eq_getElem hi, by rw [hrg]; simp, hpe.1, hpe.2⟩

/-- The searches made for a path `q` (most recent word first) whose prefix is in the trie with a child: if `q` is not in the trie, then the
ids searched are ones that the sequences report as absent (`ex`). -/
def Clear (ex : List K → Nat → Prop) (U : List K) (levels : List (List (List K))) (ro : Nat) (q : List K) : Prop :=
  ∀ g x, q = g ++ [x] → g ≠ [] → x ∈ U → g ∈ levels.getD (g.length - 1) [] → q ∉ levels.getD g.length [] →
    (∃ q' ∈ levels.getD g.length [], q'.dropLast = g) →
    if ro = 0 ∨ g.length ≤ ro ∨ q.drop (g.length - ro) ∈ levels.getD ro [] then ex g (Spec.storedId U (levels.getD ro []) ro q)
    else ex (g.drop (g.length - ro)) (U.idxOf x) ∧ ex g NF

/-- The trie looks up the n-grams of the quantised model. -/
def implements (hfb : ∀ f0, data[0]? = some f0 → ∀ r ∈ f0, fb.dec (fb.enc r.2.1) = r.2.1 ∧ fb.dec (fb.enc r.2.2) = r.2.2)
    (h : Spec.ProbFiles U data ro) (hg : Good ex fb hv U data ro pb ps bs t) (hc : Quant.Codes data pb bb ps bs) :
    Scorer.Implements (t.scorer fb) (Spec.Arpa.ofData data t.unk (Quant.quantiser ps 0) (Quant.quantiser bs 1))
      (fun g => (∀ w ∈ g, Spec.Recognised hv U w) ∧ Clear ex U (data.map (·.map (·.1.reverse))) ro g) (fun w => if w ∈ U then U.idxOf w else NF) where
  order := hg.order
  unk := rfl
  Cur := IsCur U (data.map (·.map (·.1.reverse))) t
  first_some := by
    intro k p b hV he
    have hkU := entry_unigram h (by rw [he]; rfl)
    obtain ⟨f, r, hf, hr, hrg, -⟩ := ArpaData.entry_some data t.unk (Quant.quantiser ps 0) (Quant.quantiser bs 1) (by rw [he]; rfl)
    obtain ⟨i, hi, rfl⟩ := List.mem_iff_getElem.1 hr
    have hent := ArpaData.entry_eq data t.unk (Quant.quantiser ps 0) (Quant.quantiser bs 1) h.arpa hf (List.getElem?_eq_getElem hi)
    rw [hrg, he] at hent
    replace hent : some (p, b) = some f[i].2 := hent
    have hpb : (p, b) = f[i].2 := Option.some.inj hent
    have hf' : data[0]? = some f := hf
    obtain ⟨x, hx, hxi⟩ := hg.voc f hf' f[i] hr k hrg
    have hfb' := hfb f hf' f[i] hr
    have hx1 := U_lt h hkU
    obtain ⟨rks, hrk, hB, -⟩ := hg.built
    have h2 := h.arpa.order_min
    have hl0 : (data.map (·.map (·.1.reverse)))[0]? = some (U.map fun w => [w]) := h.trie.unigrams
    have hl1 : (data.map (·.map (·.1.reverse)))[0 + 1]? = some ((data.map (·.map (·.1.reverse)))[1]'(by rw [List.length_map]; omega)) := List.getElem?_eq_getElem _
    obtain ⟨ap, a, e1, e2, e3, -⟩ := (hB 0 (by omega) _ _ (rks[0]'(by omega)) hl0 hl1 (List.getElem?_eq_getElem _)).ok
    obtain ⟨bg, en, e4, -⟩ := e3 (U.idxOf k) [k] (unigram_at h.trie hl0 hkU)
    have e1' : t.arrs[0]? = some ap := e1
    refine ⟨⟨(bg, en), U.idxOf k, U.idxOf k⟩, ?_, U.idxOf k, _, hl0, unigram_at h.trie hl0 hkU, fun _ => ⟨ap, e1, e4⟩, rfl, fun h2 => by simp at h2⟩
    show (t.voc.lookupPair k).bind _ = _
    rw [hx, Option.bind_some, if_neg (by rw [hxi]; omega), e1', Option.bind_some]
    dsimp only
    rw [hxi, SortedArray.range, e4, Option.map_some, if_pos hkU, unpack_pack]
    dsimp only
    rw [hfb'.1, hfb'.2, ← hpb]
  first_none := by
    intro k hV he
    have hkU : k ∉ U := by
      intro hk
      have hl0 := h.trie.unigrams
      rw [List.getElem?_map] at hl0
      obtain ⟨f, hf, e⟩ := Option.map_eq_some_iff.1 hl0
      have hm : [k] ∈ f.map (·.1.reverse) := by rw [e]; exact List.mem_map_of_mem hk
      obtain ⟨r, hr, hrk⟩ := List.mem_map.1 hm
      obtain ⟨i, hi, rfl⟩ := List.mem_iff_getElem.1 hr
      have hent := ArpaData.entry_eq data t.unk (Quant.quantiser ps 0) (Quant.quantiser bs 1) h.arpa hf (List.getElem?_eq_getElem hi)
      have : f[i].1 = [k] := by simpa using congrArg List.reverse hrk
      rw [this, he] at hent
      simp at hent
    rcases hV.1 k (by simp) with h1 | ⟨h1, h2⟩
    · exact absurd h1 hkU
    · show (t.voc.lookupPair k).bind _ = _
      rw [hg.vocN k h1 h2, Option.bind_some, if_pos (by rfl), if_neg hkU]
  next_some := by
    intro g x c p b hcur hg0 hgl hV hgs he
    have hxU := entry_unigram h (Scorer.entry_head (ArpaData.wellFormed data t.unk _ _ h.arpa) (by rw [he]; rfl))
    replace hgl : g.length < data.length := hgl
    obtain ⟨f, i, r, hf, hi, hrg, hp, hb⟩ := entry_gram h hg0 he
    have hpos := List.length_pos_iff.2 hg0
    obtain ⟨rks, hrk, hB, hrks⟩ := hg.built
    have hcur' := hcur
    obtain ⟨j, l, hl, hlj, hrange, hprev, -⟩ := hcur
    have hll : (data.map (·.map (·.1.reverse))).length = data.length := by rw [List.length_map]
    obtain ⟨a0, ha0, hpair⟩ := hrange (by rw [hll]; exact hgl)
    have hlev := data_level hf
    have hi' : (f.map (·.1.reverse))[i]? = some (g ++ [x]) := by rw [List.getElem?_map, hi, Option.map_some, hrg]
    have hmem := List.mem_of_getElem? hi'
    have hlr : ro ≠ 0 → ro < g.length → (data.map (·.map (·.1.reverse)))[ro]? = some ((data.map (·.map (·.1.reverse))).getD ro []) := by
      intro _ hlt
      have : (data.map (·.map (·.1.reverse)))[ro]? = some ((data.map (·.map (·.1.reverse)))[ro]'(by rw [hll]; omega)) := List.getElem?_eq_getElem _
      rw [getD_eq this]; exact this
    have hcond : ro = 0 ∨ g.length ≤ ro ∨ (g ++ [x]).drop (g.length - ro) ∈ (data.map (·.map (·.1.reverse))).getD ro [] := by
      by_cases h0 : ro = 0
      · exact .inl h0
      · by_cases h1 : g.length ≤ ro
        · exact .inr (.inl h1)
        · refine .inr (.inr ?_)
          refine drop_mem h.trie h0 (d := g.length - ro) ?_ (hlr h0 (by omega)) hmem
          rw [← hlev]; congr 1; omega
    have hid := next_id h hg hcur' hg0 hgl hxU ⟨g ++ [x], by rw [getD_eq hlev]; exact hmem, by simp⟩ (fun h1 h2 h3 => by
      rcases hcond with h' | h' | h'
      · exact absurd h' h1
      · omega
      · exact absurd h' h3)
    rw [if_pos hcond] at hid
    have hrl : rks[g.length - 1]? = some (rks[g.length - 1]'(by omega)) := List.getElem?_eq_getElem _
    have hlev' : (data.map (·.map (·.1.reverse)))[g.length - 1 + 1]? = some (f.map (·.1.reverse)) := by rw [← hlev]; congr 1; omega
    have hf' : data[g.length - 1 + 1]? = some f := by rw [← hf]; congr 1; omega
    have hok := hB (g.length - 1) (by omega) _ _ _ hl hlev' hrl
    rw [show g.length - 1 + 1 = g.length by omega] at hok
    have hU0 := h.trie.unigrams
    obtain ⟨ap, a, bg, en, h1, h2, h3, h4, h5, h6⟩ := hok.child
      (fun q q' hq hq' hd he => storedId_inj h.trie hlev hlr hq hq' hd he) (nodup_of_sorted (h.trie.sorted _ _ hlev))
      (fun q hq => by
        have := storedId_bound h.trie hlev hlr hq
        have h2 := level_sz h 0 _ h.trie.unigrams
        rw [List.length_map] at h2
        unfold NF at h2; omega) hlj hi'
    rw [ha0] at h1; cases h1
    rw [hpair] at h3
    have hcr : c.range = (bg, en) := Option.some.inj h3
    have hne : i ≠ NF := by
      have := level_sz h _ _ hlev
      have := (List.getElem?_eq_some_iff.1 hi').1
      omega
    obtain ⟨rk, m1, m2⟩ := hrks (g.length - 1) f _ hf' hrl i r hi
    obtain ⟨ap', a', n1, n2, n3, n4⟩ := hok.ok
    rw [h2] at n2; cases n2
    have hrank := n4 i rk m1
    obtain ⟨rk', o1, o2, o3, o4, o5⟩ := Quant.rankPair_ok hc hf' (List.mem_of_getElem? hi)
    rw [m2] at o1; cases o1
    rw [show g.length - 1 + 2 = g.length + 1 by omega, ← hp] at o3
    rw [show g.length - 1 + 2 = g.length + 1 by omega, ← hb] at o4
    have hlastx : (g ++ [x]).getLast?.map U.idxOf = some (U.idxOf x) := by simp
    have hnext : ∀ c', (t.scorer fb).next g.length c (U.idxOf x) = c' ↔
        (if g.length ≠ t.order - 1 then
      (Quant.accessAt t.bs (g.length - 1) (rk >>> t.pb)).bind fun b => (a.range i).map fun r => some (p, some b, ⟨r, U.idxOf x, c.prev⟩)
    else some (some (p, none, ⟨c.range, U.idxOf x, c.prev⟩))) = c' := by
      intro c'
      show (if c.range.2 - c.range.1 = 0 then some none else _) = c' ↔ _
      rw [hcr, if_neg (by show ¬ (en - bg = 0); omega), hid, Option.bind_some, h2, Option.bind_some]
      unfold SortedArray.position
      rw [h6, Option.bind_some, if_neg hne, hrank, Option.bind_some, hg.ps_eq, hg.pb_eq, o3, Option.bind_some]
    show ∃ c', (t.scorer fb).next g.length c (if x ∈ U then U.idxOf x else NF) = _ ∧ _
    rw [if_pos hxU]
    have hord : (Spec.Arpa.ofData data t.unk (Quant.quantiser ps 0) (Quant.quantiser bs 1)).order = data.length := rfl
    rw [hord]
    by_cases hlast : g.length = data.length - 1
    · refine ⟨⟨c.range, U.idxOf x, c.prev⟩, ?_, i, f.map (·.1.reverse), ?_, hi', ?_, hlastx, ?_⟩
      · rw [hnext, if_neg (by rw [hg.order]; omega), if_pos hlast]
      · rw [List.length_append, List.length_singleton, Nat.add_sub_cancel]; exact hlev
      · intro hh; rw [hll, List.length_append, List.length_singleton] at hh; omega
      · intro _; rw [List.dropLast_concat]; exact hprev
    · have hl2 : (data.map (·.map (·.1.reverse)))[g.length + 1]? = some ((data.map (·.map (·.1.reverse)))[g.length + 1]'(by rw [hll]; omega)) :=
        List.getElem?_eq_getElem _
      obtain ⟨ap2, a2, q1, q2, q3, -⟩ := (hB g.length (by omega) _ _ (rks[g.length]'(by omega)) hlev hl2 (List.getElem?_eq_getElem _)).ok
      rw [show g.length + 1 - 1 = g.length by omega, h2] at q1
      cases q1
      obtain ⟨bg', en', q4, -⟩ := q3 i (g ++ [x]) hi'
      refine ⟨⟨(bg', en'), U.idxOf x, c.prev⟩, ?_, i, f.map (·.1.reverse), ?_, hi', ?_, hlastx, ?_⟩
      · rw [hnext, if_pos (by rw [hg.order]; omega), if_neg hlast, hg.bs_eq, hg.pb_eq, o4 (by omega), Option.bind_some, SortedArray.range, q4,
          Option.map_some]
      · rw [List.length_append, List.length_singleton, Nat.add_sub_cancel]; exact hlev
      · intro _
        rw [List.length_append, List.length_singleton, Nat.add_sub_cancel]
        exact ⟨a, h2, q4⟩
      · intro _; rw [List.dropLast_concat]; exact hprev
  next_none := by
    intro g x c hcur hg0 hgl hV hgs hxs he
    have hxU := entry_unigram h hxs
    replace hgl : g.length < data.length := hgl
    have hpos := List.length_pos_iff.2 hg0
    obtain ⟨rks, hrk, hB, hrks⟩ := hg.built
    have hcur' := hcur
    obtain ⟨j, l, hl, hlj, hrange, hprev, -⟩ := hcur
    have hll : (data.map (·.map (·.1.reverse))).length = data.length := by rw [List.length_map]
    obtain ⟨a0, ha0, hpair⟩ := hrange (by rw [hll]; exact hgl)
    have hf : data[g.length]? = some (data[g.length]) := List.getElem?_eq_getElem _
    have hlev := data_level hf
    have hnot : g ++ [x] ∉ data[g.length].map (·.1.reverse) := by
      intro hm
      obtain ⟨r, hr, hrg⟩ := List.mem_map.1 hm
      obtain ⟨i, hi, rfl⟩ := List.mem_iff_getElem.1 hr
      have hent := ArpaData.entry_eq data t.unk (Quant.quantiser ps 0) (Quant.quantiser bs 1) h.arpa hf (List.getElem?_eq_getElem hi)
      have : data[g.length][i].1 = x :: g.reverse := by simpa using congrArg List.reverse hrg
      rw [this, he] at hent
      simp at hent
    have hlr : ro ≠ 0 → ro < g.length → (data.map (·.map (·.1.reverse)))[ro]? = some ((data.map (·.map (·.1.reverse))).getD ro []) := by
      intro _ hlt
      have : (data.map (·.map (·.1.reverse)))[ro]? = some ((data.map (·.map (·.1.reverse)))[ro]'(by rw [hll]; omega)) := List.getElem?_eq_getElem _
      rw [getD_eq this]; exact this
    have hrl : rks[g.length - 1]? = some (rks[g.length - 1]'(by omega)) := List.getElem?_eq_getElem _
    have hlev' : (data.map (·.map (·.1.reverse)))[g.length - 1 + 1]? = some (data[g.length].map (·.1.reverse)) := by rw [← hlev]; congr 1; omega
    have hok := hB (g.length - 1) (by omega) _ _ _ hl hlev' hrl
    rw [show g.length - 1 + 1 = g.length by omega] at hok
    obtain ⟨ap', a', n1, n2, n3, n4⟩ := hok.ok
    rw [ha0] at n1; cases n1
    obtain ⟨bg, en, n5, n6, n7, n8, -⟩ := n3 j g hlj
    rw [hpair] at n5
    have hcr : c.range = (bg, en) := Option.some.inj n5
    show (if c.range.2 - c.range.1 = 0 then some none else _) = _
    by_cases hemp : en - bg = 0
    · rw [hcr, if_pos hemp]
    · have hchild : ∃ q ∈ data[g.length].map (·.1.reverse), q.dropLast = g := by
        have hlt : bg < (data[g.length].map (·.1.reverse)).length := by omega
        exact ⟨_, List.getElem_mem hlt, (n8 bg _ (List.getElem?_eq_getElem hlt)).1 ⟨Nat.le_refl _, by omega⟩⟩
      have hcl := hV.2 g x rfl hg0 hxU (by rw [getD_eq hl]; exact List.mem_of_getElem? hlj) (by rw [getD_eq hlev]; exact hnot)
        (by rw [getD_eq hlev]; exact hchild)
      have hid := next_id h hg hcur' hg0 hgl hxU (by rw [getD_eq hlev]; exact hchild) (fun h1 h2 h3 => by
        rw [if_neg (by rintro (h | h | h); · exact h1 h
                       · omega
                       · exact h3 h)] at hcl
        exact hcl.1)
      rw [hcr, if_neg hemp, if_pos hxU, hid, Option.bind_some, n2, Option.bind_some]
      have hxw : ∀ w ∈ g ++ [x], w ∈ U := by
        intro w hw
        rcases List.mem_append.1 hw with hw | hw
        · exact h.trie.words _ _ hl g (List.mem_of_getElem? hlj) w hw
        · rw [List.mem_singleton.1 hw]; exact hxU
      have habs : ∀ id, id < 2 ^ 64 → ex g id → (∀ q ∈ data[g.length].map (·.1.reverse), q.dropLast = g →
          Spec.storedId U ((data.map (·.map (·.1.reverse))).getD ro []) ro q ≠ id) → a'.find bg en id = some NF := by
        intro id h1 hx h2
        obtain ⟨ap, a, b, e, k1, k2, k3, k4⟩ := hok.absent hlj h1 hx h2
        rw [ha0] at k1; cases k1
        rw [n2] at k2; cases k2
        rw [hpair, hcr] at k3; cases k3
        rcases k4 with ⟨-, k4⟩ | ⟨-, -, k4⟩
        · obtain ⟨q, hq, hqd⟩ := hchild
          exact absurd hqd (k4 q hq)
        · exact k4
      unfold SortedArray.position
      have hbound : ∀ q ∈ data[g.length].map (·.1.reverse), Spec.storedId U ((data.map (·.map (·.1.reverse))).getD ro []) ro q < NF := by
        intro q hq
        have := storedId_bound h.trie hlev hlr hq
        have h2 := level_sz h 0 _ h.trie.unigrams
        rw [List.length_map] at h2
        omega
      by_cases hcond : ro = 0 ∨ g.length ≤ ro ∨ (g ++ [x]).drop (g.length - ro) ∈ (data.map (·.map (·.1.reverse))).getD ro []
      · have hwin : ro ≠ 0 → ro < g.length → (g ++ [x]).drop (g.length - ro) ∈ (data.map (·.map (·.1.reverse))).getD ro [] := by
          intro h0 h1
          rcases hcond with h | h | h
          · exact absurd h h0
          · omega
          · exact h
        rw [if_pos hcond] at hcl
        rw [if_pos hcond, habs _ (storedId_lt' h.trie (level_sz h) hlr (by simp) hxw hwin) hcl (by
          intro q hq hqd hqi
          apply hnot
          rw [← storedId_inj' h.trie hlev hlr hq (by simp) hxw hwin (by rw [hqd]; simp) hqi]
          exact hq), Option.bind_some, if_pos rfl]
      · rw [if_neg hcond] at hcl
        rw [if_neg hcond, habs NF (by unfold NF; omega) hcl.2 (fun q hq _ => Nat.ne_of_lt (hbound q hq)), Option.bind_some, if_pos rfl]

/-- With sequences that recognise every absent id. -/
def implements_all (hfb : ∀ f0, data[0]? = some f0 → ∀ r ∈ f0, fb.dec (fb.enc r.2.1) = r.2.1 ∧ fb.dec (fb.enc r.2.2) = r.2.2)
    (h : Spec.ProbFiles U data ro) (hg : Good (fun _ _ => True) fb hv U data ro pb ps bs t) (hc : Quant.Codes data pb bb ps bs) :
    Scorer.Implements (t.scorer fb) (Spec.Arpa.ofData data t.unk (Quant.quantiser ps 0) (Quant.quantiser bs 1))
      (fun g => ∀ w ∈ g, Spec.Recognised hv U w) (fun w => if w ∈ U then U.idxOf w else NF) :=
  (implements hfb h hg hc).weaken fun g hg => ⟨hg, fun _ _ _ _ _ _ _ _ => by split; exacts [trivial, ⟨trivial, trivial⟩]⟩

end
end TrieProb

/-! ## Properties -/

theorem occurs_mem {K : Type} {ws g : List K} (h : Scorer.Occurs ws g) : ∀ w ∈ g, w ∈ ws := by
  obtain ⟨i, k, -, -, rfl⟩ := h
  intro w hw
  have := List.mem_of_mem_take hw
  rw [List.mem_reverse] at this
  exact List.mem_of_mem_take this

/-- The scores do not depend on what the quantisers do to values that are not listed. -/
theorem Spec.Arpa.ofData_congr {K F : Type} [DecidableEq K] {data : List (List (List K × F × F))} (unk : F) {qp qb qp' qb' : Nat → F → F}
    (h : ∀ f ∈ data.tail, ∀ r ∈ f, qp r.1.length r.2.1 = qp' r.1.length r.2.1 ∧ qb r.1.length r.2.2 = qb' r.1.length r.2.2) :
    Spec.Arpa.ofData data unk qp qb = Spec.Arpa.ofData data unk qp' qb' := by
  unfold Spec.Arpa.ofData
  congr 1
  funext g
  split
  · rfl
  · cases hf : (data.getD (g.length - 1) []).find? fun r => decide (r.1 = g) with
    | none => rfl
    | some r =>
      rw [Option.map_some, Option.map_some]
      congr 1
      by_cases hg : g.length = 1
      · rw [if_pos hg, if_pos hg]
      · rw [if_neg hg, if_neg hg]
        have hr := List.mem_of_find?_eq_some hf
        have hrg : r.1 = g := by simpa using List.find?_some hf
        rw [List.getD_eq_getElem?_getD] at hr
        rename_i hne
        have hpos := List.length_pos_iff.2 hne
        cases hd : data[g.length - 1]? with
        | none => rw [hd] at hr; simp at hr
        | some f =>
          rw [hd] at hr
          have hft : f ∈ data.tail := by
            refine List.mem_of_getElem? (i := g.length - 2) ?_
            rw [List.getElem?_tail, ← hd]; congr 1; omega
          obtain ⟨h1, h2⟩ := h f hft r hr
          rw [hrg] at h1 h2
          rw [h1, h2]

section
variable {K F : Type} [DecidableEq K] [FloatArith F]

/-- **C27.** For every ARPA model of order 2 to 8 (sorted as the builder requires) and every remapping order, the trie builds, and
scoring any sentence (of words that the vocabulary table does not confuse, C23) gives each word the probability of the backoff recursion over the
quantised model, with the context that the code keeps (`kept`). -/
theorem C27_trie_sentence_scores (fb : FloatBits F) {sort : List F → List F} (hsort : ∀ l, (sort l).Perm l ∧ (sort l).Pairwise (· ≤ ·))
    (negInf : F) (unkWord : K) (default unk : F) {U : List K} {data : List (List (List K × F × F))} {ro pb bb : Nat}
    (h : Spec.ProbFiles U data ro) (hq : Spec.Quantisable data pb bb) (hbits : pb + bb ≤ 58)
    (hfb : ∀ f0, data[0]? = some f0 → ∀ r ∈ f0, fb.dec (fb.enc r.2.1) = r.2.1 ∧ fb.dec (fb.enc r.2.2) = r.2.2)
    {hv : Mphf K 64} (hb : hv.BuiltFrom U) {hr : Nat → Mphf Nat 64} (hh : Spec.RangeHashes hr (TrieProb.asCounts data))
    {junk : Nat → List W} (hj : ∀ k, junk k ≠ []) :
    ∃ t qp qb, TrieProb.build fb sort negInf unkWord default hv (GramsImpl.fastEF hr) (RanksImpl.cv junk) ro unk pb bb data = some (.ok t) ∧
      Spec.Quantised data pb bb qp qb ∧
      ∀ (sentence : List K) (d : Nat) (one : F), (∀ w ∈ sentence, Spec.Recognised hv U w) →
        (t.scorer fb).scoreSentence d one sentence =
          some ((Spec.Arpa.ofData data (Spec.unkProb unkWord default (data.getD 0 []) unk) qp qb).wordScores sentence) := by
  obtain ⟨ps, bs, e1, e2, e3⟩ := Quant.codebooks_ok hsort negInf h.arpa.order_min hq
  obtain ⟨t, f1, f2, f3⟩ := TrieProb.build_ok fb negInf unkWord default unk h hb hh hj hbits e1 e2
  have hd : data[0]? = some (data.getD 0 []) := by
    rw [List.getD_eq_getElem?_getD, List.getElem?_eq_getElem (by have := h.arpa.order_min; omega)]; rfl
  refine ⟨t, _, _, f1, e3, ?_⟩
  intro sentence d one hV
  rw [← findUnk_spec unkWord default _ unk (h.arpa.distinct _ (List.mem_of_getElem? hd)), ← f3 _ hd]
  exact Scorer.scoreSentence_eq (TrieProb.implements_all hfb h f2 e2) (ArpaData.wellFormed data _ _ _ h.arpa) d one sentence
    (fun g hg w hw => hV w (occurs_mem hg w hw))

/-- **C27.** If no context of a listed n-gram has backoff 0 (after quantisation), these are the textbook ARPA scores: context of `order - 1`
words, probability of the longest listed n-gram plus backoffs of the longer contexts. -/
theorem C27_trie_textbook_scores (fb : FloatBits F) {sort : List F → List F} (hsort : ∀ l, (sort l).Perm l ∧ (sort l).Pairwise (· ≤ ·))
    (negInf : F) (unkWord : K) (default unk : F) {U : List K} {data : List (List (List K × F × F))} {ro pb bb : Nat}
    (h : Spec.ProbFiles U data ro) (hq : Spec.Quantisable data pb bb) (hbits : pb + bb ≤ 58)
    (hfb : ∀ f0, data[0]? = some f0 → ∀ r ∈ f0, fb.dec (fb.enc r.2.1) = r.2.1 ∧ fb.dec (fb.enc r.2.2) = r.2.2)
    {hv : Mphf K 64} (hb : hv.BuiltFrom U) {hr : Nat → Mphf Nat 64} (hh : Spec.RangeHashes hr (TrieProb.asCounts data))
    {junk : Nat → List W} (hj : ∀ k, junk k ≠ []) :
    ∃ t qp qb, TrieProb.build fb sort negInf unkWord default hv (GramsImpl.fastEF hr) (RanksImpl.cv junk) ro unk pb bb data = some (.ok t) ∧
      Spec.Quantised data pb bb qp qb ∧
      ∀ A, A = Spec.Arpa.ofData data (Spec.unkProb unkWord default (data.getD 0 []) unk) qp qb → A.NonZeroContexts →
      ∀ (sentence : List K) (d : Nat) (one : F), (∀ w ∈ sentence, Spec.Recognised hv U w) →
        (t.scorer fb).scoreSentence d one sentence =
          some (sentence.mapIdx fun i w => (A.scoreAt sentence i w, (A.entry [w]).isNone)) := by
  obtain ⟨t, qp, qb, e1, e2, e3⟩ := C27_trie_sentence_scores fb hsort negInf unkWord default unk h hq hbits hfb hb hh hj
  refine ⟨t, qp, qb, e1, e2, ?_⟩
  rintro A rfl nzc sentence d one hV
  rw [e3 sentence d one hV, Scorer.wordScores_textbook (ArpaData.wellFormed data _ _ _ h.arpa) nzc]

/-- **C30** for tries: the totals of a text are sums over its sentences of what each sentence alone gives. -/
theorem C30_trie_corpus_totals (fb : FloatBits F) {sort : List F → List F} (hsort : ∀ l, (sort l).Perm l ∧ (sort l).Pairwise (· ≤ ·))
    (negInf : F) (unkWord : K) (default unk : F) {U : List K} {data : List (List (List K × F × F))} {ro pb bb : Nat}
    (h : Spec.ProbFiles U data ro) (hq : Spec.Quantisable data pb bb) (hbits : pb + bb ≤ 58)
    (hfb : ∀ f0, data[0]? = some f0 → ∀ r ∈ f0, fb.dec (fb.enc r.2.1) = r.2.1 ∧ fb.dec (fb.enc r.2.2) = r.2.2)
    {hv : Mphf K 64} (hb : hv.BuiltFrom U) {hr : Nat → Mphf Nat 64} (hh : Spec.RangeHashes hr (TrieProb.asCounts data))
    {junk : Nat → List W} (hj : ∀ k, junk k ≠ []) :
    ∃ t, TrieProb.build fb sort negInf unkWord default hv (GramsImpl.fastEF hr) (RanksImpl.cv junk) ro unk pb bb data = some (.ok t) ∧
      ∀ (text : List (List K)) (d : Nat) (one : F), (∀ ws ∈ text, ∀ w ∈ ws, Spec.Recognised hv U w) →
        ∃ scores : List (List (F × Bool)), (∀ (i : Nat) ws, text[i]? = some ws → scores[i]? = (t.scorer fb).scoreSentence d one ws) ∧ scores.length = text.length ∧
        ∃ total : Totals F, (t.scorer fb).scoreCorpus d one text = some total ∧
          total.sentences = text.length ∧ total.tokens = (text.map List.length).sum ∧
          total.oovs = (scores.map fun s => s.countP (·.2)).sum ∧
          total.total = (scores.map fun s => (s.map (·.1)).foldl (· + ·) 0).foldl (· + ·) 0 ∧
          total.onlyOOVs = ((scores.flatten.filter (·.2)).map (·.1)).foldl (· + ·) 0 := by
  obtain ⟨ps, bs, e1, e2, e3⟩ := Quant.codebooks_ok hsort negInf h.arpa.order_min hq
  obtain ⟨t, f1, f2, f3⟩ := TrieProb.build_ok fb negInf unkWord default unk h hb hh hj hbits e1 e2
  refine ⟨t, f1, ?_⟩
  intro text d one hV
  exact Scorer.corpus_totals (TrieProb.implements_all hfb h f2 e2) (ArpaData.wellFormed data _ _ _ h.arpa) d one text
    (fun ws hws g hg w hw => hV ws hws w (occurs_mem hg w hw))

/-- Non-zero contexts, in terms of the listed values: no listed backoff is positive, and the context of a listed n-gram has a backoff
that is not 0. -/
structure Spec.ContextsMatter (data : List (List (List K × F × F))) : Prop where
  nonpos : ∀ f ∈ data.dropLast, ∀ r ∈ f, r.2.2 ≤ 0
  nonzero : ∀ (k : Nat) (f f' : List (List K × F × F)), data[k]? = some f → data[k + 1]? = some f' →
    ∀ r ∈ f, (∃ r' ∈ f', r'.1.dropLast = r.1) → r.2.2 ≠ 0

theorem ArpaData.nonZeroContexts {data : List (List (List K × F × F))} (h : Spec.ArpaFiles data) (hm : Spec.ContextsMatter data) {pb bb : Nat}
    {qp qb : Nat → F → F} (hq : Spec.Quantised data pb bb qp qb) (unk : F) : (Spec.Arpa.ofData data unk qp qb).NonZeroContexts := by
  intro g w hg hne
  have hpos := List.length_pos_iff.2 hne
  obtain ⟨f', r', hf', hr', hrg', -⟩ := entry_some data unk qp qb hg
  rw [List.length_append, List.length_singleton, Nat.add_sub_cancel] at hf'
  obtain ⟨f, r, hf, hr, hrg, -⟩ := entry_some data unk qp qb ((wellFormed data unk qp qb h).context g w hg hne)
  obtain ⟨i, hi, rfl⟩ := List.mem_iff_getElem.1 hr
  have hent := entry_eq data unk qp qb h hf (List.getElem?_eq_getElem hi)
  rw [hrg] at hent
  have hlt := (List.getElem?_eq_some_iff.1 hf').1
  have hnz := hm.nonzero (g.length - 1) f f' hf (by rw [← hf']; congr 1; omega) f[i] hr ⟨r', hr', by rw [hrg', hrg]; simp⟩
  have hb : (Spec.Arpa.ofData data unk qp qb).backoff g ≠ 0 := by
    rw [Spec.Arpa.backoff, hent]
    by_cases h1 : g.length = 1
    · rw [if_pos h1]; exact hnz
    · rw [if_neg h1]
      show qb g.length f[i].2.2 ≠ 0
      have hf2 : data[(g.length - 2) + 1]? = some f := by rw [← hf]; congr 1; omega
      obtain ⟨-, h2⟩ := hq.backoffs (g.length - 2) f hf2 (by omega)
      obtain ⟨code, -, h3, h4⟩ := h2 ⟨f[i], hr, hnz⟩
      rw [show g.length - 2 + 2 = g.length by omega] at h4
      obtain ⟨-, r2, hr2, hr3, hr4⟩ := h3 _ (h4 f[i] hr hnz).1
      have hfd : f ∈ data.dropLast := by
        refine List.mem_of_getElem? (i := g.length - 1) ?_
        rw [List.getElem?_dropLast, if_pos (by omega)]; exact hf
      have := lt_of_le_of_ne (hm.nonpos f hfd r2 hr2) hr3
      intro e
      rw [e] at hr4
      exact absurd hr4 (not_le.2 this)
  show decide ((Spec.Arpa.ofData data unk qp qb).backoff g ≠ 0) = true
  simpa using hb

/-- **C27** in terms of the ARPA file: if no listed backoff is positive and every context of a listed n-gram has a non-zero backoff, each word of
each sentence gets the textbook score over the quantised model. -/
theorem C27_trie_scores_of_file (fb : FloatBits F) {sort : List F → List F} (hsort : ∀ l, (sort l).Perm l ∧ (sort l).Pairwise (· ≤ ·))
    (negInf : F) (unkWord : K) (default unk : F) {U : List K} {data : List (List (List K × F × F))} {ro pb bb : Nat}
    (h : Spec.ProbFiles U data ro) (hm : Spec.ContextsMatter data) (hq : Spec.Quantisable data pb bb) (hbits : pb + bb ≤ 58)
    (hfb : ∀ f0, data[0]? = some f0 → ∀ r ∈ f0, fb.dec (fb.enc r.2.1) = r.2.1 ∧ fb.dec (fb.enc r.2.2) = r.2.2)
    {hv : Mphf K 64} (hb : hv.BuiltFrom U) {hr : Nat → Mphf Nat 64} (hh : Spec.RangeHashes hr (TrieProb.asCounts data))
    {junk : Nat → List W} (hj : ∀ k, junk k ≠ []) :
    ∃ t qp qb, TrieProb.build fb sort negInf unkWord default hv (GramsImpl.fastEF hr) (RanksImpl.cv junk) ro unk pb bb data = some (.ok t) ∧
      Spec.Quantised data pb bb qp qb ∧
      ∀ (sentence : List K) (d : Nat) (one : F), (∀ w ∈ sentence, Spec.Recognised hv U w) →
        (t.scorer fb).scoreSentence d one sentence =
          some (sentence.mapIdx fun i w =>
            ((Spec.Arpa.ofData data (Spec.unkProb unkWord default (data.getD 0 []) unk) qp qb).scoreAt sentence i w, decide (w ∉ U))) := by
  obtain ⟨t, qp, qb, e1, e2, e3⟩ := C27_trie_textbook_scores fb hsort negInf unkWord default unk h hq hbits hfb hb hh hj
  refine ⟨t, qp, qb, e1, e2, ?_⟩
  intro sentence d one hV
  rw [e3 _ rfl (ArpaData.nonZeroContexts h.arpa hm e2 _) sentence d one hV]
  have hOOV : ∀ w, ((Spec.Arpa.ofData data (Spec.unkProb unkWord default (data.getD 0 []) unk) qp qb).entry [w]).isNone = decide (w ∉ U) := by
    intro w
    by_cases hw : w ∈ U
    · rw [decide_eq_false (by simpa using hw)]
      have hl0 := h.trie.unigrams
      rw [List.getElem?_map] at hl0
      obtain ⟨f, hf, e⟩ := Option.map_eq_some_iff.1 hl0
      have hm : [w] ∈ f.map (·.1.reverse) := by rw [e]; exact List.mem_map_of_mem hw
      obtain ⟨r, hr, hrk⟩ := List.mem_map.1 hm
      obtain ⟨i, hi, rfl⟩ := List.mem_iff_getElem.1 hr
      have hent := ArpaData.entry_eq data (Spec.unkProb unkWord default (data.getD 0 []) unk) qp qb h.arpa hf (List.getElem?_eq_getElem hi)
      have : f[i].1 = [w] := by simpa using congrArg List.reverse hrk
      rw [this] at hent
      rw [hent]; rfl
    · rw [decide_eq_true hw]
      cases he : (Spec.Arpa.ofData data (Spec.unkProb unkWord default (data.getD 0 []) unk) qp qb).entry [w] with
      | none => rfl
      | some _ => exact absurd (TrieProb.entry_unigram h (by rw [he]; rfl)) hw
  simp only [hOOV]

end

/-! ## Concrete models -/

namespace TrieProbExample

/-- A sort of rationals. -/
def sortQ : List ℚ → List ℚ := fun l => l.mergeSort (· ≤ ·)

theorem sortQ_ok (l : List ℚ) : (sortQ l).Perm l ∧ (sortQ l).Pairwise (· ≤ ·) := by
  refine ⟨List.mergeSort_perm _ _, ?_⟩
  have := List.pairwise_mergeSort (le := fun a b : ℚ => decide (a ≤ b)) (fun a b c h1 h2 => by simp at *; exact le_trans h1 h2)
    (fun a b => by simp; exact le_total a b) l
  exact this.imp (fun h => by simpa using h)

/-- Integers as floats. -/
def fbQ : FloatBits ℚ := ⟨fun x => BitVec.ofInt 32 x.num, fun b => (b.toInt : ℚ)⟩

/-- A trigram model over the words 0, 1, 2; all bigrams have the backoff `b2`. -/
def data (b2 : ℚ) : List (List (List Nat × ℚ × ℚ)) :=
  [[([0], -2, -1), ([1], -3, -1), ([2], -3, -1)],
   [([1, 0], -1/2, b2), ([2, 0], -1/2, b2), ([0, 1], -1/2, b2), ([1, 2], -1/2, b2)],
   [([0, 1, 0], -1/4, 0), ([1, 2, 0], -1/4, 0), ([2, 0, 1], -1/4, 0), ([0, 1, 2], -1/4, 0)]]

theorem data_ok (b2 : ℚ) (ro : Nat) (hro : ro ≤ 2) : Spec.ProbFiles [0, 1, 2] (data b2) ro where
  arpa := by
    refine ⟨by simp [data], by simp [data], ?_, ?_, ?_, ?_, ?_⟩
    · intro k l h; rcases k with _ | _ | _ | k <;> simp [data] at h <;> subst h <;> simp
    · intro f hf; simp [data] at hf; rcases hf with rfl | rfl | rfl <;> simp
    · intro f hf; simp [data] at hf; rcases hf with rfl | rfl | rfl <;> simp
    · intro k l l' h h'; rcases k with _ | _ | _ | k <;> simp [data] at h h' <;> subst h h' <;> simp
    · intro k l l' h h'; rcases k with _ | _ | _ | k <;> simp [data] at h h' <;> subst h h' <;> simp
  trie := by
    refine ⟨by decide, rfl, ?_, ?_, ?_, ?_, ?_, ?_⟩
    · intro k l h; rcases k with _ | _ | _ | k <;> simp [data] at h <;> subst h <;> simp
    · intro k l h; rcases k with _ | _ | _ | k <;> simp [data] at h <;> subst h <;> simp
    · intro k l h; rcases k with _ | _ | _ | k <;> simp [data] at h <;> subst h <;> simp
    · intro k l h; rcases k with _ | _ | _ | k <;> simp [data] at h <;> subst h <;> decide
    · intro k l l' h h'; rcases k with _ | _ | _ | k <;> simp [data] at h h' <;> subst h h' <;> simp
    · refine Trie.windows_of_suffixes ?_
      intro _ k l l' h h'; rcases k with _ | _ | _ | k <;> simp [data] at h h' <;> subst h h' <;> simp
  remapping := hro
  size := by intro f hf; simp [data] at hf; rcases hf with rfl | rfl | rfl <;> simp

theorem data_quant (b2 : ℚ) : Spec.Quantisable (data b2) 2 2 where
  probs := by decide
  backoffs := by decide
  probs_size := by intro f hf; simp [data] at hf; rcases hf with rfl | rfl <;> simp
  backoffs_size := by
    intro f hf
    simp [data] at hf; subst hf
    by_cases h : b2 = 0
    · left; subst h; simp
    · right; simp [h]
  probs_bins := fun _ _ => trivial
  backoffs_bins := fun _ _ => trivial

theorem data_float (b2 : ℚ) : ∀ f0, (data b2)[0]? = some f0 → ∀ r ∈ f0, fbQ.dec (fbQ.enc r.2.1) = r.2.1 ∧ fbQ.dec (fbQ.enc r.2.2) = r.2.2 := by
  intro f0 hf r hr
  simp [data] at hf; subst hf
  simp at hr
  rcases hr with rfl | rfl | rfl <;> exact ⟨by decide +kernel, by decide +kernel⟩

theorem data_hashes (b2 : ℚ) : Spec.RangeHashes (fun _ => FastEF.exMphf) (TrieProb.asCounts (data b2)) := by
  intro k f g h h' hn
  rcases k with _ | _ | _ | k <;> simp [data, TrieProb.asCounts] at h h' <;> subst h h' <;> exact absurd (by decide +kernel) hn

theorem recognised (w : Nat) (hw : w ∈ [0, 1, 2, 4]) : Spec.Recognised MphExample.mphf [0, 1, 2] w := by
  by_cases h : w ∈ [0, 1, 2]
  · exact .inl h
  · right
    have : w = 4 := by simp at hw h; omega
    subst this
    exact ⟨by decide +kernel, by decide +kernel⟩

theorem data_matter : Spec.ContextsMatter (data (-1/8)) where
  nonpos := by intro f hf; simp [data] at hf; rcases hf with rfl | rfl <;> simp <;> norm_num
  nonzero := by
    intro k f f' h h'
    rcases k with _ | _ | _ | k <;> simp [data] at h h' <;> subst h h' <;> simp

/-- Quantising sections whose values are all equal changes nothing. -/
theorem data_exact {b2 : ℚ} {qp qb : Nat → ℚ → ℚ} (hq : Spec.Quantised (data b2) 2 2 qp qb) (unk : ℚ) :
    Spec.Arpa.ofData (data b2) unk qp qb = Spec.Arpa.ofData (data b2) unk (fun _ v => v) (fun n v => if n = 2 then v else qb n v) := by
  apply Spec.Arpa.ofData_congr
  have h1 : qp 2 (-1/2) = -1/2 := by
    obtain ⟨code, -, c2, c3⟩ := hq.probs 0 _ rfl
    obtain ⟨m, -⟩ := c3 ([1, 0], -1/2, b2) (by simp)
    obtain ⟨⟨r, hr, hr1⟩, s, hs, hs1⟩ := c2 _ m
    have e1 : r.2.1 = -1/2 := by simp at hr; rcases hr with rfl | rfl | rfl | rfl <;> rfl
    have e2 : s.2.1 = -1/2 := by simp at hs; rcases hs with rfl | rfl | rfl | rfl <;> rfl
    rw [e1] at hr1; rw [e2] at hs1
    exact le_antisymm hs1 hr1
  have h2 : qp 3 (-1/4) = -1/4 := by
    obtain ⟨code, -, c2, c3⟩ := hq.probs 1 _ rfl
    obtain ⟨m, -⟩ := c3 ([0, 1, 0], -1/4, 0) (by simp)
    obtain ⟨⟨r, hr, hr1⟩, s, hs, hs1⟩ := c2 _ m
    have e1 : r.2.1 = -1/4 := by simp at hr; rcases hr with rfl | rfl | rfl | rfl <;> rfl
    have e2 : s.2.1 = -1/4 := by simp at hs; rcases hs with rfl | rfl | rfl | rfl <;> rfl
    rw [e1] at hr1; rw [e2] at hs1
    exact le_antisymm hs1 hr1
  have h3 : qb 2 b2 = b2 := by
    obtain ⟨z, nz⟩ := hq.backoffs 0 _ rfl (by simp [data])
    by_cases h0 : b2 = 0
    · have := z ([1, 0], -1/2, b2) (by simp) h0
      rw [h0] at this ⊢; exact this
    · obtain ⟨code, -, c2, c3⟩ := nz ⟨([1, 0], -1/2, b2), by simp, h0⟩
      obtain ⟨m, -⟩ := c3 ([1, 0], -1/2, b2) (by simp) h0
      obtain ⟨⟨r, hr, -, hr1⟩, s, hs, -, hs1⟩ := c2 _ m
      have e1 : r.2.2 = b2 := by simp at hr; rcases hr with rfl | rfl | rfl | rfl <;> rfl
      have e2 : s.2.2 = b2 := by simp at hs; rcases hs with rfl | rfl | rfl | rfl <;> rfl
      rw [e1] at hr1; rw [e2] at hs1
      exact le_antisymm hs1 hr1
  intro f hf r hr
  simp [data] at hf
  rcases hf with rfl | rfl
  · simp at hr
    rcases hr with rfl | rfl | rfl | rfl <;> exact ⟨h1, h3⟩
  · simp at hr
    rcases hr with rfl | rfl | rfl | rfl <;> exact ⟨h2, rfl⟩

/-- The hypotheses of C27 are met (remapping order 1), with an unknown word in the sentence: the words of "0 1 2 4 0" get -2, -1/2 (bigram), -1/4 (trigram), the
probability of unknown words plus the backoffs of "2" and of "1 2", and -2. -/
example : ∃ t, TrieProb.build fbQ sortQ (-1000) 9 (-100) MphExample.mphf (GramsImpl.fastEF fun _ => FastEF.exMphf) (RanksImpl.cv fun _ => [0#64]) 1 (-100)
      2 2 (data (-1/8)) = some (.ok t) ∧
    (t.scorer fbQ).scoreSentence 7 1 [0, 1, 2, 4, 0] = some [(-2, false), (-1/2, false), (-1/4, false), (-100 - 1 - 1/8, true), (-2, false)] := by
  obtain ⟨t, qp, qb, e1, e2, e3⟩ := C27_trie_scores_of_file fbQ sortQ_ok (-1000) 9 (-100) (-100) (data_ok (-1/8) 1 (by omega)) data_matter (data_quant _)
    (by decide) (data_float _) MphExample.built (data_hashes _) (junk := fun _ => [0#64]) (by simp)
  refine ⟨t, e1, ?_⟩
  rw [e3 [0, 1, 2, 4, 0] 7 1 (fun w hw => recognised w (by simp at hw ⊢; omega)), data_exact e2]
  simp [Spec.Arpa.scoreAt, Spec.Arpa.lastN, Spec.Arpa.score, Spec.Arpa.backoff, Spec.Arpa.ofData, data, Spec.unkProb]
  norm_num

end TrieProbExample

open TrieProbExample in
/-- C27, defect: contexts of backoff 0 are forgotten even when they are contexts of listed n-grams.  Here all bigrams have backoff 0; after "0 1" the trigram
"0 1 2" is listed with log-probability -1/4, and yet the word 2 gets the -1/2 of the bigram "1 2". -/
theorem C27_zero_backoff_context_defect :
    ∃ t, TrieProb.build fbQ sortQ (-1000) 9 (-100) MphExample.mphf (GramsImpl.fastEF fun _ => FastEF.exMphf) (RanksImpl.cv fun _ => [0#64]) 1 (-100)
      2 2 (data 0) = some (.ok t) ∧ ([0, 1, 2], -1/4, 0) ∈ (data 0).getD 2 [] ∧
    (t.scorer fbQ).scoreSentence 7 1 [0, 1, 2] = some [(-2, false), (-1/2, false), (-1/2, false)] := by
  obtain ⟨t, qp, qb, e1, e2, e3⟩ := C27_trie_sentence_scores fbQ sortQ_ok (-1000) 9 (-100) (-100) (data_ok 0 1 (by omega)) (data_quant _)
    (by decide) (data_float _) MphExample.built (data_hashes _) (junk := fun _ => [0#64]) (by simp)
  refine ⟨t, e1, by simp [data], ?_⟩
  rw [e3 [0, 1, 2] 7 1 (fun w hw => recognised w (by simp at hw ⊢; omega)), data_exact e2]
  simp [Spec.Arpa.wordScores, Spec.Arpa.keptScoreAt, Spec.Arpa.kept, Spec.Arpa.longestNZ, Spec.Arpa.lastN, Spec.Arpa.score, Spec.Arpa.backoff, Spec.Arpa.ofData, data, Spec.unkProb, LogProb.nz]

end Tongrams
