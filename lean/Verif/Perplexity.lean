import Verif.Exact
import Mathlib.Analysis.SpecialFunctions.Pow.Real

/-!
# The perplexities reported by `score` (C68)

`score` prints two powers of ten of averages of its totals (score.cpp:66-77).  Here: how far they can be from the perplexities of the text under the ARPA file.
-/

set_option linter.unusedSectionVars false

namespace Tongrams
open Fp

/-- "perplexity including OOVs", score.cpp:66-69.  The division and `pow` in `double` are taken as exact; for an empty corpus the program divides 0 by 0 (the result
here has then no meaning). -/
noncomputable def Totals.perplexity (t : Totals Binary32) : ℝ := (10 : ℝ) ^ (-(((t.total.1 : ℚ) : ℝ) / (t.tokens : ℝ)))

/-- "perplexity excluding OOVs", score.cpp:70-77, printed only if there are words that are not OOVs; the subtraction is one of `float`s, the division and `pow` are
taken as exact. -/
noncomputable def Totals.perplexityKnown (t : Totals Binary32) : Option ℝ :=
  if t.tokens - t.oovs ≠ 0 then some ((10 : ℝ) ^ (-((((t.total - t.onlyOOVs).1 : ℚ) : ℝ) / ((t.tokens - t.oovs : Nat) : ℝ)))) else none

/-- Specification: the perplexity of `n` words with sum `T` of their log10-probabilities. -/
noncomputable def Spec.perplexity (T : ℚ) (n : Nat) : ℝ := (10 : ℝ) ^ (-((T : ℝ) / (n : ℝ)))

/-- Specification: the exact textbook scores of all words of a text, each with the mark of an unknown word. -/
def Spec.Arpa.exactScores {K : Type} (A : Spec.Arpa K ℚ) (text : List (List K)) : List (ℚ × Bool) :=
  text.flatMap fun ws => ws.mapIdx fun i w => (A.scoreAt ws i w, (A.entry [w]).isNone)

/-- Specification: the exact sum of the scores of the unknown words, and of the known words. -/
def Spec.Arpa.exactUnknown {K : Type} (A : Spec.Arpa K ℚ) (text : List (List K)) : ℚ := (((A.exactScores text).filter fun p => p.2).map (·.1)).sum
def Spec.Arpa.exactKnown {K : Type} (A : Spec.Arpa K ℚ) (text : List (List K)) : ℚ := (((A.exactScores text).filter fun p => !p.2).map (·.1)).sum

namespace Perplexity
open Accuracy

theorem power {t T ε D : ℚ} {n : Nat} (hn : 0 < n) (hT : T ≤ 0) (h : |t - T| ≤ ε * |T| + D * n) :
    Spec.perplexity T n ^ ((1 - ε : ℚ) : ℝ) / 10 ^ (D : ℝ) ≤ Spec.perplexity t n ∧ Spec.perplexity t n ≤ Spec.perplexity T n ^ ((1 + ε : ℚ) : ℝ) * 10 ^ (D : ℝ) := by
  have hn' : (0 : ℝ) < n := by exact_mod_cast hn
  rw [abs_of_nonpos hT, abs_le] at h
  obtain ⟨h1, h2⟩ := h
  have h1' : (((-(ε * -T + D * n) : ℚ)) : ℝ) ≤ ((t - T : ℚ) : ℝ) := by exact_mod_cast h1
  have h2' : ((t - T : ℚ) : ℝ) ≤ ((ε * -T + D * n : ℚ) : ℝ) := by exact_mod_cast h2
  push_cast at h1' h2'
  unfold Spec.perplexity
  have h10 : (0 : ℝ) < 10 := by norm_num
  rw [← Real.rpow_mul h10.le, ← Real.rpow_mul h10.le, ← Real.rpow_add h10, ← Real.rpow_sub h10]
  push_cast
  constructor
  · refine Real.rpow_le_rpow_of_exponent_le (by norm_num) ?_
    rw [show -((T : ℝ) / n) * (1 - (ε : ℝ)) - D = -((T * (1 - ε) + D * n) / n) by field_simp; ring, neg_le_neg_iff]
    exact (div_le_div_iff_of_pos_right hn').2 (by linarith)
  · refine Real.rpow_le_rpow_of_exponent_le (by norm_num) ?_
    rw [show -((T : ℝ) / n) * (1 + (ε : ℝ)) + D = -((T * (1 + ε) - D * n) / n) by field_simp; ring, neg_le_neg_iff]
    exact (div_le_div_iff_of_pos_right hn').2 (by linarith)

theorem power' {t T E : ℚ} {n : Nat} (hn : 0 < n) (h : |t - T| ≤ E * n) :
    Spec.perplexity T n / 10 ^ (E : ℝ) ≤ Spec.perplexity t n ∧ Spec.perplexity t n ≤ Spec.perplexity T n * 10 ^ (E : ℝ) := by
  have hn' : (0 : ℝ) < n := by exact_mod_cast hn
  rw [abs_le] at h
  obtain ⟨h1, h2⟩ := h
  have h1' : (((-(E * n) : ℚ)) : ℝ) ≤ ((t - T : ℚ) : ℝ) := by exact_mod_cast h1
  have h2' : ((t - T : ℚ) : ℝ) ≤ ((E * n : ℚ) : ℝ) := by exact_mod_cast h2
  push_cast at h1' h2'
  unfold Spec.perplexity
  have h10 : (0 : ℝ) < 10 := by norm_num
  rw [← Real.rpow_add h10, ← Real.rpow_sub h10]
  constructor
  · refine Real.rpow_le_rpow_of_exponent_le (by norm_num) ?_
    rw [show -((T : ℝ) / n) - E = -((T + E * n) / n) by field_simp; ring, neg_le_neg_iff]
    exact (div_le_div_iff_of_pos_right hn').2 (by linarith)
  · refine Real.rpow_le_rpow_of_exponent_le (by norm_num) ?_
    rw [show -((T : ℝ) / n) + E = -((T - E * n) / n) by field_simp; ring, neg_le_neg_iff]
    exact (div_le_div_iff_of_pos_right hn').2 (by linarith)

theorem at_least_one {t : ℚ} {n : Nat} (h : t ≤ 0) : 1 ≤ Spec.perplexity t n := by
  unfold Spec.perplexity
  refine Real.one_le_rpow (by norm_num) ?_
  have : (t : ℝ) ≤ 0 := by exact_mod_cast h
  rw [← neg_div]
  exact div_nonneg (by linarith) (Nat.cast_nonneg n)
end Perplexity
namespace Perplexity
open Accuracy Exact

theorem sub_err (a b : Binary32) : |(a - b).1 - (a.1 - b.1)| ≤ |a.1 - b.1| * u := by
  have hb : rndF (-b.1) = -b.1 := by
    have := b.2
    unfold rndF at this ⊢
    rw [rnd_neg, this]
  have := add_err a ⟨-b.1, hb⟩
  have e : a - b = a + ⟨-b.1, hb⟩ := Subtype.ext (by show rndF (a.1 - b.1) = rndF (a.1 + -b.1); rw [sub_eq_add_neg])
  rw [e, show a.1 - b.1 = a.1 + -b.1 by ring]
  exact this

/-- What is computed is close to the exact result over the quantised values, which is close to that over the listed ones. -/
theorem combine {Y X T ε D : ℚ} (hε : 0 ≤ ε) (h1 : |Y - X| ≤ ε * |X|) (h2 : |X - T| ≤ D) : |Y - T| ≤ ε * |T| + (1 + ε) * D := by
  have h3 : |X| ≤ |T| + D := by
    have := abs_sub_abs_le_abs_sub X T
    linarith
  calc |Y - T| = |(Y - X) + (X - T)| := by ring_nf
    _ ≤ |Y - X| + |X - T| := abs_add_le _ _
    _ ≤ ε * |X| + D := by linarith
    _ ≤ ε * (|T| + D) + D := by have := mul_le_mul_of_nonneg_left h3 hε; linarith
    _ = ε * |T| + (1 + ε) * D := by ring

/-- A sum of numbers, each of them close to an exact one. -/
theorem flat {k : Nat} (l : List (Binary32 × ℚ)) (h : ∀ p ∈ l, p.2 ≤ 0 ∧ (1 + u) ^ k * p.2 ≤ p.1.1 ∧ p.1.1 ≤ (1 - u) ^ k * p.2) (hn : k + l.length ≤ 2 ^ 23) :
    |((l.map (·.1)).foldl (· + ·) (0 : Binary32)).1 - (l.map (·.2)).sum| ≤ ((k + l.length : Nat) : ℚ) / 2 ^ 23 * |(l.map (·.2)).sum| := by
  have := Accuracy.sum_bounds k l h 0 (0 : Binary32) 0 (le_refl _) (by show _ ≤ (0 : ℚ); simp) (by show (0 : ℚ) ≤ _; simp)
  simp only [zero_add] at this
  obtain ⟨g1, g2⟩ := this
  obtain ⟨p1, p2⟩ := pow_bounds _ hn
  have h0 : (l.map (·.2)).sum ≤ 0 := sum_map_nonpos _ _ fun p hp => (h p hp).1
  have e2 : (2 : ℚ) ^ (-23 : ℤ) = 1 / 2 ^ 23 := by norm_num
  rw [e2] at p1 p2
  have e3 : ∀ n : ℚ, n * (1 / 2 ^ 23) = n / 2 ^ 23 := by intro n; ring
  rw [e3] at p1 p2
  rw [abs_of_nonpos h0, abs_le]
  constructor <;> nlinarith

variable {K : Type}

/-- The four scores of the words of a text: computed, exact over the quantised values, exact over the listed values; mark of an unknown word. -/
def cells (A : Spec.Arpa K Binary32) (B : Spec.Arpa K ℚ) (text : List (List K)) : List (Binary32 × ℚ × ℚ × Bool) :=
  text.flatMap fun ws => ws.mapIdx fun i w => (A.scoreAt ws i w, A.exact.scoreAt ws i w, B.scoreAt ws i w, (A.entry [w]).isNone)

theorem cells_fine {A : Spec.Arpa K Binary32} (hA : Nonpos A) (h1 : 1 ≤ A.order) {B : Spec.Arpa K ℚ} {δ : ℚ} (hδ : 0 ≤ δ) (ho : A.order = B.order)
    (hu : |A.exact.unk - B.unk| ≤ δ)
    (hs : ∀ g, (A.exact.entry g = none ∧ B.entry g = none) ∨ ∃ p b p' b', A.exact.entry g = some (p, b) ∧ B.entry g = some (p', b') ∧ |p - p'| ≤ δ)
    (hb : ∀ g, g.length < A.order → |A.exact.backoff g - B.backoff g| ≤ δ) (text : List (List K)) :
    ∀ c ∈ cells A B text, (c.2.1 ≤ 0 ∧ (1 + u) ^ A.order * c.2.1 ≤ c.1.1 ∧ c.1.1 ≤ (1 - u) ^ A.order * c.2.1) ∧ |c.2.1 - c.2.2.1| ≤ A.order * δ := by
  intro c hc
  obtain ⟨ws, -, hc⟩ := List.mem_flatMap.1 hc
  obtain ⟨i, hi, rfl⟩ := List.mem_mapIdx.1 hc
  have hl := lastN_length (n := A.order - 1) (ws.take i)
  constructor
  · obtain ⟨a, b, c⟩ := score_bounds hA (Spec.Arpa.lastN (A.order - 1) (ws.take i)) ws[i] (by omega)
    exact ⟨a, weaken (by omega) a b c⟩
  · show |A.exact.score (Spec.Arpa.lastN (A.order - 1) (ws.take i)) ws[i] - B.score (Spec.Arpa.lastN (B.order - 1) (ws.take i)) ws[i]| ≤ _
    rw [← ho]
    refine le_trans (score_close (A := A.exact) hδ hu hs hb _ ws[i] (by show _ < A.order; omega)) ?_
    refine mul_le_mul_of_nonneg_right ?_ hδ
    exact_mod_cast (by omega : (Spec.Arpa.lastN (A.order - 1) (ws.take i)).length + 1 ≤ A.order)

theorem cells_exact (A : Spec.Arpa K Binary32) {B : Spec.Arpa K ℚ} (he : ∀ w, (B.entry [w]).isNone = (A.entry [w]).isNone) (text : List (List K)) :
    B.exactScores text = (cells A B text).map fun c => (c.2.2.1, c.2.2.2) := by
  unfold cells Spec.Arpa.exactScores
  rw [List.map_flatMap]
  apply List.flatMap_congr
  intro ws _
  rw [map_mapIdx']
  simp only [he]

theorem exact_total (B : Spec.Arpa K ℚ) (text : List (List K)) : B.exactTotal text = B.exactUnknown text + B.exactKnown text := by
  have key : ∀ l : List (ℚ × Bool), (l.map (·.1)).sum = ((l.filter fun p => p.2).map (·.1)).sum + ((l.filter fun p => !p.2).map (·.1)).sum := by
    intro l
    induction l with
    | nil => simp
    | cons p l ih =>
      obtain ⟨q, b⟩ := p
      cases b <;> simp [ih] <;> ring
  unfold Spec.Arpa.exactUnknown Spec.Arpa.exactKnown
  rw [← key]
  unfold Spec.Arpa.exactTotal Spec.Arpa.exactScores
  induction text with
  | nil => rfl
  | cons ws text ih =>
    rw [List.map_cons, List.sum_cons, ih, List.flatMap_cons, List.map_append, List.sum_append, map_mapIdx']

/-- The sum of the unknown words. -/
theorem unknown {A : Spec.Arpa K Binary32} {B : Spec.Arpa K ℚ} {δ : ℚ} {text : List (List K)}
    (hc : ∀ c ∈ cells A B text, (c.2.1 ≤ 0 ∧ (1 + u) ^ A.order * c.2.1 ≤ c.1.1 ∧ c.1.1 ≤ (1 - u) ^ A.order * c.2.1) ∧ |c.2.1 - c.2.2.1| ≤ A.order * δ)
    (he : ∀ w, (B.entry [w]).isNone = (A.entry [w]).isNone)
    (ht : ∀ ws ∈ text, A.wordScores ws = ws.mapIdx fun i w => (A.scoreAt ws i w, (A.entry [w]).isNone))
    (hn : A.order + (A.corpus text).oovs ≤ 2 ^ 23) {ε : ℚ} (hε : ε = ((A.order + (A.corpus text).oovs : Nat) : ℚ) / 2 ^ 23) :
    |(A.corpus text).onlyOOVs.1 - B.exactUnknown text| ≤ ε * |B.exactUnknown text| + (1 + ε) * (A.order * δ * (A.corpus text).oovs) := by
  have hlen : (A.corpus text).oovs = ((cells A B text).filter fun c => c.2.2.2).length := by
    show (text.map fun ws => ws.countP fun w => (A.entry [w]).isNone).sum = _
    rw [← List.countP_eq_length_filter]
    unfold cells
    clear hc ht hn hε
    induction text with
    | nil => rfl
    | cons ws text ih =>
      rw [List.map_cons, List.sum_cons, ih, List.flatMap_cons, List.countP_append]
      congr 1
      rw [List.mapIdx_eq_zipIdx_map, List.countP_map]
      conv_lhs => rw [← List.zipIdx_map_fst 0 ws]
      rw [List.countP_map]
      rfl
  have e1 : (A.corpus text).onlyOOVs = (((((cells A B text).filter fun c => c.2.2.2).map fun c => (c.1, c.2.1)).map (·.1)).foldl (· + ·) (0 : Binary32)) := by
    rw [Accuracy.corpus_oovs]
    have : (text.map A.wordScores).flatten = (cells A B text).map fun c => (c.1, c.2.2.2) := by
      unfold cells
      rw [List.map_flatMap, List.flatMap_def]
      congr 1
      apply List.map_congr_left
      intro ws hw
      rw [ht ws hw, map_mapIdx']
    rw [this, List.filter_map, List.map_map, List.map_map]
    rfl
  have e2 : B.exactUnknown text = (((cells A B text).filter fun c => c.2.2.2).map fun c => c.2.2.1).sum := by
    unfold Spec.Arpa.exactUnknown
    rw [cells_exact A he, List.filter_map, List.map_map]
    rfl
  have h1 := flat (((cells A B text).filter fun c => c.2.2.2).map fun c => (c.1, c.2.1)) (k := A.order) (by
    intro p hp
    obtain ⟨c, hc', rfl⟩ := List.mem_map.1 hp
    exact (hc c (List.mem_of_mem_filter hc')).1) (by rw [List.length_map, ← hlen]; exact hn)
  rw [← e1, List.length_map, ← hlen, List.map_map, ← hε] at h1
  have h2 := sum_close ((cells A B text).filter fun c => c.2.2.2) (fun c => c.2.1) (fun c => c.2.2.1) (fun _ => A.order * δ)
    fun c hc' => (hc c (List.mem_of_mem_filter hc')).2
  rw [← e2] at h2
  refine combine (by rw [hε]; positivity) h1 (le_trans h2 (le_of_eq ?_))
  rw [List.map_const', List.sum_replicate, ← hlen, nsmul_eq_mul]
  ring

/-- The words that are known. -/
theorem known {t o : Binary32} {T O V E1 E2 : ℚ} (hV : T = O + V) (h1 : |t.1 - T| ≤ E1) (h2 : |o.1 - O| ≤ E2) :
    |(t - o).1 - V| ≤ u * |V| + (1 + u) * (E1 + E2) := by
  have h3 := sub_err t o
  have h4 : |t.1 - o.1 - V| ≤ E1 + E2 := by
    rw [show t.1 - o.1 - V = (t.1 - T) - (o.1 - O) by rw [hV]; ring]
    exact le_trans (abs_sub _ _) (by linarith)
  have := combine u_pos.le (by rw [mul_comm]; exact h3) h4
  exact this

end Perplexity

namespace Perplexity
open Accuracy Exact
variable {K : Type} [DecidableEq K]

theorem foldl_nonpos (l : List Binary32) (h : ∀ x ∈ l, x ≤ 0) (f : Binary32) (hf : f ≤ 0) : l.foldl (· + ·) f ≤ 0 := by
  induction l generalizing f with
  | nil => exact hf
  | cons x l ih =>
    refine ih (fun y hy => h y (List.mem_cons_of_mem _ hy)) _ ?_
    show rndF (f.1 + x.1) ≤ 0
    have hx : x.1 ≤ 0 := h x List.mem_cons_self
    have hf' : f.1 ≤ 0 := hf
    have : rndF (f.1 + x.1) ≤ rndF 0 := rndF_mono (by linarith)
    rwa [show rndF 0 = 0 from rnd_zero] at this

/-- The total is not positive. -/
theorem total_nonpos {A : Spec.Arpa K Binary32} (hA : Nonpos A) (h1 : 1 ≤ A.order) {text : List (List K)}
    (ht : ∀ ws ∈ text, A.wordScores ws = ws.mapIdx fun i w => (A.scoreAt ws i w, (A.entry [w]).isNone)) : (A.corpus text).total ≤ 0 := by
  rw [Accuracy.corpus_total]
  refine foldl_nonpos _ ?_ 0 (le_refl _)
  intro x hx
  obtain ⟨l, hl, rfl⟩ := List.mem_map.1 hx
  refine foldl_nonpos _ ?_ 0 (le_refl _)
  intro y hy
  rw [List.map_map] at hl
  obtain ⟨ws, hw, rfl⟩ := List.mem_map.1 hl
  simp only [Function.comp_apply] at hy
  rw [ht ws hw, map_mapIdx'] at hy
  obtain ⟨i, hi, rfl⟩ := List.mem_mapIdx.1 hy
  have hl := lastN_length (n := A.order - 1) (ws.take i)
  obtain ⟨a, -, c⟩ := score_bounds hA (Spec.Arpa.lastN (A.order - 1) (ws.take i)) ws[i] (by omega)
  have := pow_pos' (Spec.Arpa.lastN (A.order - 1) (ws.take i)).length
  have h0 : (A.score (Spec.Arpa.lastN (A.order - 1) (ws.take i)) ws[i]).1 ≤ 0 := le_trans c (mul_nonpos_of_nonneg_of_nonpos this a)
  exact h0

/-- The scores over the values of the file are not positive. -/
theorem file_nonpos {data : List (List (List K × Binary32 × Binary32))} (h : Spec.ArpaFiles data) (hm : Spec.ContextsMatter data) (hl : Spec.LogValues data)
    {unk : Binary32} (hu : unk ≤ 0) : Nonpos (Spec.Arpa.ofData data unk (fun _ v => v) (fun _ v => v)) where
  unk := hu
  probs := by
    intro g p b he
    obtain ⟨f, r, hf, hr, hrg, hne⟩ := ArpaData.entry_some data unk _ _ (by rw [he]; rfl)
    obtain ⟨i, hi, rfl⟩ := List.mem_iff_getElem.1 hr
    have hent := ArpaData.entry_eq data unk (fun _ v => v) (fun _ v => v) h hf (List.getElem?_eq_getElem hi)
    rw [hrg, he] at hent
    have hent := Option.some.inj hent
    have e : p = f[i].2.1 := by split at hent <;> exact congrArg Prod.fst hent
    rw [e]; exact hl f (List.mem_of_getElem? hf) _ hr
  backoffs := by
    intro g hg
    change g.length < data.length at hg
    rw [Spec.Arpa.backoff]
    cases he : (Spec.Arpa.ofData data unk (fun _ v => v) (fun _ v => v)).entry g with
    | none => exact le_refl _
    | some pb =>
      obtain ⟨f, r, hf, hr, hrg, hne⟩ := ArpaData.entry_some data unk _ _ (by rw [he]; rfl)
      obtain ⟨i, hi, rfl⟩ := List.mem_iff_getElem.1 hr
      have hent := ArpaData.entry_eq data unk (fun _ v => v) (fun _ v => v) h hf (List.getElem?_eq_getElem hi)
      have hpos := List.length_pos_iff.2 hne
      rw [hrg, he] at hent
      have hent := Option.some.inj hent
      have e : pb.2 = f[i].2.2 := by split at hent <;> exact congrArg Prod.snd hent
      have hfd : f ∈ data.dropLast := by
        refine List.mem_of_getElem? (i := g.length - 1) ?_
        rw [List.getElem?_dropLast, if_pos (by omega)]; exact hf
      show pb.2.1 ≤ 0
      rw [e]; exact hm.nonpos f hfd _ hr

end Perplexity

/-- Specification: the perplexities reported for a text of S sentences of up to L words, over the ARPA model `file` with exact values, when quantisation moves no value
by more than `δ`.  `P`: the perplexity of the text, `Q`: that of its known words (of which there are `known`), `T`, `O`: exact sums of all scores and of those of the
unknown words. -/
structure Spec.PerplexitiesClose {K : Type} (file : Spec.Arpa K ℚ) (text : List (List K)) (L : Nat) (δ : ℚ) (tot : Totals Binary32) : Prop where
  including : text ≠ [] → ∀ ε D P, ε = ((file.order + L + text.length : Nat) : ℚ) / 2 ^ 23 → D = (1 + ε) * (file.order * δ) →
    P = Spec.perplexity (file.exactTotal text) (text.map List.length).sum →
    P ^ ((1 - ε : ℚ) : ℝ) / 10 ^ (D : ℝ) ≤ tot.perplexity ∧ tot.perplexity ≤ P ^ ((1 + ε : ℚ) : ℝ) * 10 ^ (D : ℝ)
  excluding : ∀ unknown known, unknown = ((file.exactScores text).countP fun p => p.2) → known = ((file.exactScores text).countP fun p => !p.2) → known ≠ 0 →
    file.order + unknown ≤ 2 ^ 23 →
    ∀ ε₁ ε₂ E Q, ε₁ = ((file.order + L + text.length : Nat) : ℚ) / 2 ^ 23 → ε₂ = ((file.order + unknown : Nat) : ℚ) / 2 ^ 23 →
    E = (2 ^ (-24 : ℤ) * |file.exactKnown text| + (1 + 2 ^ (-24 : ℤ)) * (ε₁ * |file.exactTotal text| + (1 + ε₁) * (file.order * δ * (unknown + known : Nat)) +
      (ε₂ * |file.exactUnknown text| + (1 + ε₂) * (file.order * δ * unknown)))) / known →
    Q = Spec.perplexity (file.exactKnown text) known →
    ∃ p, tot.perplexityKnown = some p ∧ Q / 10 ^ (E : ℝ) ≤ p ∧ p ≤ Q * 10 ^ (E : ℝ)

namespace Perplexity
open Accuracy Exact
variable {K : Type} [DecidableEq K]

theorem close {data : List (List (List K × Binary32 × Binary32))} (h : Spec.ArpaFiles data) (hm : Spec.ContextsMatter data) (hl : Spec.LogValues data)
    {pb bb : Nat} {qp qb : Nat → Binary32 → Binary32} (hq : Spec.Quantised data pb bb qp qb) {unk : Binary32} (hu : unk ≤ 0) {δ : ℚ} (hδ : 0 ≤ δ)
    (hw : Spec.QuantisedWithin data qp qb δ) (text : List (List K)) (hne : ∀ l ∈ text, l ≠ []) (L : Nat) (hL : ∀ l ∈ text, l.length ≤ L)
    (hn : data.length + L + text.length ≤ 2 ^ 23) :
    Spec.PerplexitiesClose (Spec.Arpa.ofData data unk (fun _ v => v) (fun _ v => v)).exact text L δ ((Spec.Arpa.ofData data unk qp qb).corpus text) := by
  have ho := h.order_min
  have htb : ∀ ws ∈ text, (Spec.Arpa.ofData data unk qp qb).wordScores ws = ws.mapIdx fun i w =>
      ((Spec.Arpa.ofData data unk qp qb).scoreAt ws i w, ((Spec.Arpa.ofData data unk qp qb).entry [w]).isNone) :=
    fun ws _ => Scorer.wordScores_textbook (ArpaData.wellFormed data _ _ _ h) (ArpaData.nonZeroContexts h hm hq unk) ws
  have hT0 : (Spec.Arpa.ofData data unk (fun _ v => v) (fun _ v => v)).exact.exactTotal text ≤ 0 :=
    sum_map_nonpos _ _ fun ws _ => (sentence (file_nonpos h hm hl hu) (by show 1 ≤ data.length; omega) ws).1
  have hrep := reported h hm hl hq hu hδ hw text L hL hn _ _ rfl rfl
  have he : ∀ w, ((Spec.Arpa.ofData data unk (fun _ v => v) (fun _ v => v)).exact.entry [w]).isNone = ((Spec.Arpa.ofData data unk qp qb).entry [w]).isNone := by
    intro w
    show (Option.map _ (if ([w] : List K) = [] then none else Option.map _ _)).isNone = (if ([w] : List K) = [] then none else Option.map _ _ : Option _).isNone
    rw [if_neg (by simp), if_neg (by simp)]
    simp only [Option.isNone_map]
  constructor
  · intro ht ε D P hε hD hP
    have hpos : 0 < (text.map List.length).sum := by
      cases text with
      | nil => exact absurd rfl ht
      | cons ws text =>
        rw [List.map_cons, List.sum_cons]
        have := List.length_pos_iff.2 (hne ws List.mem_cons_self)
        omega
    rw [hP]
    refine power (D := D) hpos hT0 (le_trans hrep (le_of_eq ?_))
    rw [hD, hε]
    show _ = ((data.length + L + text.length : Nat) : ℚ) / 2 ^ 23 * _ + (1 + ((data.length + L + text.length : Nat) : ℚ) / 2 ^ 23) * (data.length * δ) * _
    ring
  · intro unknown known hunk hkn hkn0 hn2 ε₁ ε₂ E Q hε₁ hε₂ hE hQ
    have hlen : (text.map List.length).sum = unknown + known := by
      have : (text.map List.length).sum = ((Spec.Arpa.ofData data unk (fun _ v => v) (fun _ v => v)).exact.exactScores text).length := by
        unfold Spec.Arpa.exactScores
        rw [List.length_flatMap]
        congr 1
        apply List.map_congr_left
        intro ws _
        rw [List.length_mapIdx]
      rw [this, hunk, hkn, List.length_eq_countP_add_countP (fun p : ℚ × Bool => p.2)]
      congr 1
      apply List.countP_congr
      intro p _
      simp
    have hoov : ((Spec.Arpa.ofData data unk qp qb).corpus text).oovs = unknown := by
      rw [hunk]
      show (text.map fun ws => ws.countP fun w => ((Spec.Arpa.ofData data unk qp qb).entry [w]).isNone).sum = _
      unfold Spec.Arpa.exactScores
      clear hrep hT0 htb hn hL hne hE hQ hε₁ hkn hunk hlen hn2 hε₂
      induction text with
      | nil => rfl
      | cons ws text ih =>
        rw [List.map_cons, List.sum_cons, ih, List.flatMap_cons, List.countP_append]
        congr 1
        rw [List.mapIdx_eq_zipIdx_map, List.countP_map]
        conv_lhs => rw [← List.zipIdx_map_fst 0 ws]
        rw [List.countP_map]
        apply List.countP_congr
        intro p _
        simp only [Function.comp_apply, he]
    obtain ⟨c1, c2, c3⟩ := quantised_close h hδ hw unk rfl rfl
    have hc := cells_fine (A := Spec.Arpa.ofData data unk qp qb) (nonpos h hm hl hq hu) (by show 1 ≤ data.length; omega) hδ rfl c1 c2 c3 text
    have hU := Perplexity.unknown hc he htb (by rw [hoov]; exact hn2) rfl
    rw [hoov] at hU
    have hK := Perplexity.known (exact_total _ text) hrep hU
    have hrem : ((Spec.Arpa.ofData data unk qp qb).corpus text).tokens - ((Spec.Arpa.ofData data unk qp qb).corpus text).oovs = known := by
      rw [hoov]
      show (text.map List.length).sum - unknown = known
      rw [hlen]; omega
    unfold Totals.perplexityKnown
    rw [hrem, if_pos hkn0]
    refine ⟨_, rfl, ?_⟩
    rw [hQ]
    refine power' (E := E) (Nat.pos_of_ne_zero hkn0) (le_trans hK (le_of_eq ?_))
    have hk' : (known : ℚ) ≠ 0 := by exact_mod_cast hkn0
    rw [hE, div_mul_cancel₀ _ hk', hε₁, hε₂, hlen]
    rfl

end Perplexity

/-- **C68** (trie).  Values that are log-probabilities: "perplexity including OOVs" of a text is at least 1. -/
theorem C68_trie_perplexity_at_least_one {strtod : List Byte → Binary32 × Nat} (lead gap : Nat) {sections : List (List (Spec.ArpaLine Binary32) × Nat)}
    {tail : List Byte} (hg : Spec.GoodArpa strtod sections tail) (fb : FloatBits Binary32) {sort : List Binary32 → List Binary32}
    (hsort : ∀ l, (sort l).Perm l ∧ (sort l).Pairwise (· ≤ ·))
    (negInf default unk : Binary32) {U : List (List Byte)} {data : List (List (List (List Byte) × Binary32 × Binary32))} {ro pb bb : Nat}
    (hd : Spec.ArpaLists sections data) (hwords : ∀ f ∈ data, ∀ r ∈ f, ∀ w ∈ r.1, w ≠ [] ∧ sp ∉ w)
    (h : Spec.ProbFiles U data ro) (hq : Spec.Quantisable data pb bb) (hbits : pb + bb ≤ 58)
    (hfb : ∀ f0, data[0]? = some f0 → ∀ r ∈ f0, fb.dec (fb.enc r.2.1) = r.2.1 ∧ fb.dec (fb.enc r.2.2) = r.2.2)
    {hv : Mphf (List Byte) 64} (hb : hv.BuiltFrom U) {hr : Nat → Mphf Nat 64} (hh : Spec.RangeHashes hr (TrieProb.asCounts data))
    {junk : Nat → List W} (hj : ∀ k, junk k ≠ [])
    (hm : Spec.ContextsMatter data) (hl : Spec.LogValues data) (hdef : default ≤ 0) (hunk : unk ≤ 0) :
    ∃ t, TrieProb.buildArpa strtod fb sort negInf default hv (GramsImpl.fastEF hr) (RanksImpl.cv junk) ro unk pb bb sections.length
        (Spec.arpaText lead gap sections tail) = some (.ok t) ∧
      ∀ (text : List (List (List Byte))) (d : Nat) (one : Binary32), (∀ l ∈ text, l ≠ [] ∧ ∀ w ∈ l, Spec.IsWord w ∧ Spec.Recognised hv U w) → text ≠ [] →
        ∃ tot, (t.scorer fb).scoreText (slice (textOf text)) d one (textOf text) = some tot ∧ 1 ≤ tot.perplexity := by
  obtain ⟨t, qp, qb, e1, e2, e3⟩ := C46_score_tool_trie lead gap hg fb hsort negInf default unk hd hwords h hq hbits hfb hb hh hj
  refine ⟨t, e1, ?_⟩
  intro text d one ht _
  refine ⟨_, e3 text d one ht, Perplexity.at_least_one (Perplexity.total_nonpos (Exact.nonpos h.arpa hm hl e2 (Exact.unk_nonpos hl _ hdef hunk)) ?_ ?_)⟩
  · have := h.arpa.order_min
    show 1 ≤ data.length
    omega
  · exact fun ws _ => Scorer.wordScores_textbook (ArpaData.wellFormed data _ _ _ h.arpa) (ArpaData.nonZeroContexts h.arpa hm e2 _) ws

/-- **C68** (trie).  Both perplexities that `score` prints are close to those of the text under the ARPA file. -/
theorem C68_trie_perplexities {strtod : List Byte → Binary32 × Nat} (lead gap : Nat) {sections : List (List (Spec.ArpaLine Binary32) × Nat)}
    {tail : List Byte} (hg : Spec.GoodArpa strtod sections tail) (fb : FloatBits Binary32) {sort : List Binary32 → List Binary32}
    (hsort : ∀ l, (sort l).Perm l ∧ (sort l).Pairwise (· ≤ ·))
    (negInf default unk : Binary32) {U : List (List Byte)} {data : List (List (List (List Byte) × Binary32 × Binary32))} {ro pb bb : Nat}
    (hd : Spec.ArpaLists sections data) (hwords : ∀ f ∈ data, ∀ r ∈ f, ∀ w ∈ r.1, w ≠ [] ∧ sp ∉ w)
    (h : Spec.ProbFiles U data ro) (hq : Spec.Quantisable data pb bb) (hbits : pb + bb ≤ 58)
    (hfb : ∀ f0, data[0]? = some f0 → ∀ r ∈ f0, fb.dec (fb.enc r.2.1) = r.2.1 ∧ fb.dec (fb.enc r.2.2) = r.2.2)
    {hv : Mphf (List Byte) 64} (hb : hv.BuiltFrom U) {hr : Nat → Mphf Nat 64} (hh : Spec.RangeHashes hr (TrieProb.asCounts data))
    {junk : Nat → List W} (hj : ∀ k, junk k ≠ [])
    (hm : Spec.ContextsMatter data) (hl : Spec.LogValues data) (hdef : default ≤ 0) (hunk : unk ≤ 0) :
    ∃ t qp qb, TrieProb.buildArpa strtod fb sort negInf default hv (GramsImpl.fastEF hr) (RanksImpl.cv junk) ro unk pb bb sections.length
        (Spec.arpaText lead gap sections tail) = some (.ok t) ∧
      Spec.Quantised data pb bb qp qb ∧
      ∀ δ, 0 ≤ δ → Spec.QuantisedWithin data qp qb δ →
      ∀ (text : List (List (List Byte))) (d L : Nat) (one : Binary32), (∀ l ∈ text, l ≠ [] ∧ ∀ w ∈ l, Spec.IsWord w ∧ Spec.Recognised hv U w) →
        (∀ l ∈ text, l.length ≤ L) → data.length + L + text.length ≤ 2 ^ 23 →
        ∃ tot, (t.scorer fb).scoreText (slice (textOf text)) d one (textOf text) = some tot ∧
          Spec.PerplexitiesClose (Spec.Arpa.ofData data (Spec.unkProb Spec.unkText default (data.getD 0 []) unk) (fun _ v => v) (fun _ v => v)).exact text L δ tot := by
  obtain ⟨t, qp, qb, e1, e2, e3⟩ := C46_score_tool_trie lead gap hg fb hsort negInf default unk hd hwords h hq hbits hfb hb hh hj
  refine ⟨t, qp, qb, e1, e2, ?_⟩
  intro δ hδ hw text d L one ht hL hn
  exact ⟨_, e3 text d one ht, Perplexity.close h.arpa hm hl e2 (Exact.unk_nonpos hl _ hdef hunk) hδ hw text (fun l hl => (ht l hl).1) L hL hn⟩

/-- **C68** (hash model). -/
theorem C68_mph_perplexities {B : Nat} {strtod : List Byte → Binary32 × Nat} (lead gap : Nat) {sections : List (List (Spec.ArpaLine Binary32) × Nat)}
    {tail : List Byte} (hg : Spec.GoodArpa strtod sections tail) (fb : FloatBits Binary32) {sort : List Binary32 → List Binary32}
    (hsort : ∀ l, (sort l).Perm l ∧ (sort l).Pairwise (· ≤ ·)) (negInf default unk : Binary32) {mem pb bb : Nat} (extra : Nat)
    {hs : Nat → Mphf (List Byte) B} {data : List (List (List (List Byte) × Binary32 × Binary32))}
    (hd : Spec.ArpaLists sections data) (h : Spec.MphProbInput fb mem pb bb hs data)
    (hm : Spec.ContextsMatter data) (hl : Spec.LogValues data) (hdef : default ≤ 0) (hunk : unk ≤ 0) :
    ∃ m qp qb, MphProb.buildArpa strtod fb sort negInf default unk mem extra hs pb bb sections.length (Spec.arpaText lead gap sections tail) = some (.ok m) ∧
      Spec.Quantised data pb bb qp qb ∧
      ∀ (text : List (List (List Byte))) (d : Nat) (one : Binary32), (∀ l ∈ text, l ≠ [] ∧ ∀ w ∈ l, Spec.IsWord w) →
        (∀ l ∈ text, Spec.GramsRecognised hs data l) → text ≠ [] →
        ∃ tot, (m.scorer fb (textOf text)).scoreText id d one (textOf text) = some tot ∧ 1 ≤ tot.perplexity ∧
          ∀ δ, 0 ≤ δ → Spec.QuantisedWithin data qp qb δ → ∀ L, (∀ l ∈ text, l.length ≤ L) → data.length + L + text.length ≤ 2 ^ 23 →
          Spec.PerplexitiesClose (Spec.Arpa.ofData data (Spec.unkProb Spec.unkText default (data.getD 0 []) unk) (fun _ v => v) (fun _ v => v)).exact text L δ tot := by
  obtain ⟨m, qp, qb, e1, e2, e3⟩ := C46_score_tool_mph lead gap hg fb hsort negInf default unk extra hd h
  refine ⟨m, qp, qb, e1, e2, ?_⟩
  intro text d one ht hr _
  refine ⟨_, e3 text d one ht hr, Perplexity.at_least_one (Perplexity.total_nonpos (Exact.nonpos h.arpa hm hl e2 (Exact.unk_nonpos hl _ hdef hunk)) ?_ ?_), ?_⟩
  · have := h.arpa.order_min
    show 1 ≤ data.length
    omega
  · exact fun ws _ => Scorer.wordScores_textbook (ArpaData.wellFormed data _ _ _ h.arpa) (ArpaData.nonZeroContexts h.arpa hm e2 _) ws
  · intro δ hδ hw L hL hn
    exact Perplexity.close h.arpa hm hl e2 (Exact.unk_nonpos hl _ hdef hunk) hδ hw text (fun l hl => (ht l hl).1) L hL hn

namespace PerplexityExample
open AccuracyExample ExactExample
open MphProbExample (w w_word)

/-- `n` lines "a b" of C44's ARPA file (with `float`s): the reported perplexity is that of the text, 10^(5/4), up to the exponents given. -/
example : ∃ t, TrieProb.buildArpa strtod32 fb32 (List.insertionSort (· ≤ ·)) (Binary32.ofRat (-1000)) (Binary32.ofRat (-100))
      (TextExample.mphf3 [w 0, w 1, w 2]) (GramsImpl.fastEF fun _ => FastEF.exMphf) (RanksImpl.cv fun _ => [0#64]) 1
      (Binary32.ofRat (-100)) 2 2 3 (Spec.arpaText 0 0 sections32 [nl]) = some (.ok t) ∧
    ∀ n : Nat, 1 ≤ n → n ≤ 8000000 → ∀ ε : ℚ, ε = ((3 + 2 + n : Nat) : ℚ) / 2 ^ 23 →
      ∃ tot, (t.scorer fb32).scoreText (slice (textOf (List.replicate n [w 0, w 1]))) 0 0 (textOf (List.replicate n [w 0, w 1])) = some tot ∧
      ((10 : ℝ) ^ (5 / 4 : ℝ)) ^ ((1 - ε : ℚ) : ℝ) ≤ tot.perplexity ∧ tot.perplexity ≤ ((10 : ℝ) ^ (5 / 4 : ℝ)) ^ ((1 + ε : ℚ) : ℝ) := by
  obtain ⟨t, qp, qb, e1, e2, e3⟩ := C68_trie_perplexities 0 0 good32 fb32 sort32 (Binary32.ofRat (-1000)) (Binary32.ofRat (-100))
    (Binary32.ofRat (-100)) lists32 words32 trie32 quant32 (by decide) floats32
    (TextExample.built3 (keys := [w 0, w 1, w 2]) rfl (by decide)) hashes32 (junk := fun _ => [0#64]) (by simp)
    contexts logs (le0 (by norm_num)) (le0 (by norm_num))
  refine ⟨t, e1, fun n h1 hn ε hε => ?_⟩
  obtain ⟨tot, t1, t2⟩ := e3 0 (le_refl _) (C67_quantisation_within_spread e2 (le_refl _) spread) (List.replicate n [w 0, w 1]) 0 2 0 (by
      intro l hl
      rw [List.eq_of_mem_replicate hl]
      refine ⟨by simp, fun x hx => ?_⟩
      simp at hx
      rcases hx with rfl | rfl
      · exact ⟨w_word _ (by decide), .inl (by simp)⟩
      · exact ⟨w_word _ (by decide), .inl (by simp)⟩) (by
      intro l hl
      rw [List.eq_of_mem_replicate hl]; simp) (by
      rw [List.length_replicate]; show 3 + 2 + n ≤ _; omega)
  have := t2.including (by intro e; have := congrArg List.length e; simp at this; omega) ε 0 ((10 : ℝ) ^ (5 / 4 : ℝ)) (by rw [hε, List.length_replicate]; rfl) (by ring) (by
    rw [exact32, List.map_replicate, List.sum_replicate]
    show _ = (10 : ℝ) ^ (-((((n : ℚ) * (-5 / 2) : ℚ) : ℝ) / ((n • [w 0, w 1].length : Nat) : ℝ)))
    have hn0 : (n : ℝ) ≠ 0 := by exact_mod_cast (by omega : n ≠ 0)
    have hx : -((((n : ℚ) * (-5 / 2) : ℚ) : ℝ) / ((n • [w 0, w 1].length : Nat) : ℝ)) = 5 / 4 := by
      simp only [List.length_cons, List.length_nil, smul_eq_mul]
      push_cast
      field_simp
      norm_num
    rw [hx])
  refine ⟨tot, t1, ?_⟩
  simpa using this

theorem v64 : (Binary32.ofRat (-64)).1 = -64 := conv_neg (m := 1) (k := 6) (by norm_num) (by norm_num) (by norm_num) (by norm_num)

/-- Sums of -64. -/
theorem copies64 (n : Nat) : ∀ (k : Nat) (f : Binary32), k + n ≤ 2 ^ 24 → f.1 = -(64 * k) → ((List.replicate n (Binary32.ofRat (-64))).foldl (· + ·) f).1 = -(64 * (k + n : Nat)) := by
  induction n with
  | zero => intro k f _ hf; simpa using hf
  | succ n ih =>
    intro k f hk hf
    rw [List.replicate_succ, List.foldl_cons]
    rw [ih (k + 1) _ (by omega) ?_]
    · congr 3; omega
    · show rndF (f.1 + (Binary32.ofRat (-64)).1) = _
      rw [v64, hf]
      have := conv_neg (q := -(64 * ((k + 1 : Nat) : ℚ))) (m := (k + 1 : Nat)) (k := 6) (by push_cast; ring) (by omega) (by norm_cast; omega) (by norm_num)
      have h2 : -(64 * (k : ℚ)) + -64 = -(64 * ((k + 1 : Nat) : ℚ)) := by push_cast; ring
      rw [h2]
      exact this

/-- Many unknown words and one known one. -/
def lines (n : Nat) : List (List (List Byte)) := List.replicate n [w 3] ++ [[w 0]]

theorem unk32 : Spec.unkProb Spec.unkText (Binary32.ofRat (-100)) (data.getD 0 []) (Binary32.ofRat (-64)) = Binary32.ofRat (-64) := by
  unfold Spec.unkProb
  rw [if_neg]
  intro e
  have := congrArg Subtype.val e
  rw [v64, show (Binary32.ofRat (-100)).1 = -100 from conv_neg (m := 25) (k := 2) (by norm_num) (by norm_num) (by norm_num) (by norm_num)] at this
  norm_num at this

theorem entry3 (u : Binary32) (qp qb : Nat → Binary32 → Binary32) : (Spec.Arpa.ofData data u qp qb).entry [w 3] = none := by
  unfold Spec.Arpa.ofData
  simp [AccuracyExample.data, MphProbExample.data, w]

theorem wordScores3 (u : Binary32) (qp qb : Nat → Binary32 → Binary32) : (Spec.Arpa.ofData data u qp qb).wordScores [w 3] = [(u, true)] := by
  unfold Spec.Arpa.wordScores
  rw [List.mapIdx_cons, List.mapIdx_nil, entry3]
  unfold Spec.Arpa.keptScoreAt
  rw [List.take_zero, show Spec.Arpa.lastN _ ([] : List (List Byte)) = [] from by simp [Spec.Arpa.lastN], Spec.Arpa.score, entry3]
  rfl

theorem corpus3 (qp qb : Nat → Binary32 → Binary32) {n : Nat} (h1 : 2 ^ 21 ≤ n) (h2 : n ≤ 2 ^ 24) :
    (((Spec.Arpa.ofData data (Binary32.ofRat (-64)) qp qb).corpus (lines n)).total - ((Spec.Arpa.ofData data (Binary32.ofRat (-64)) qp qb).corpus (lines n)).onlyOOVs).1 = 0 ∧
    ((Spec.Arpa.ofData data (Binary32.ofRat (-64)) qp qb).corpus (lines n)).tokens = n + 1 ∧
    ((Spec.Arpa.ofData data (Binary32.ofRat (-64)) qp qb).corpus (lines n)).oovs = n := by
  have hw : (lines n).map (Spec.Arpa.ofData data (Binary32.ofRat (-64)) qp qb).wordScores = List.replicate n [(Binary32.ofRat (-64), true)] ++ [[(Binary32.ofRat (-2), false)]] := by
    unfold lines
    rw [List.map_append, List.map_replicate, wordScores3, List.map_cons, List.map_nil, wordScores32]
  have hz : ((0 : Binary32) + Binary32.ofRat (-64)) = Binary32.ofRat (-64) := Subtype.ext (by
    show rndF (0 + (Binary32.ofRat (-64)).1) = _
    rw [zero_add]; exact (Binary32.ofRat (-64)).2)
  have hz2 : ((0 : Binary32) + Binary32.ofRat (-2)) = Binary32.ofRat (-2) := Subtype.ext (by
    show rndF (0 + (Binary32.ofRat (-2)).1) = _
    rw [zero_add]; exact (Binary32.ofRat (-2)).2)
  have hc := copies64 n 0 0 (by omega) (by show (0 : ℚ) = _; simp)
  rw [Nat.zero_add] at hc
  refine ⟨?_, ?_, ?_⟩
  · have ht : ((Spec.Arpa.ofData data (Binary32.ofRat (-64)) qp qb).corpus (lines n)).total = (List.replicate n (Binary32.ofRat (-64))).foldl (· + ·) (0 : Binary32) := by
      rw [Accuracy.corpus_total, hw]
      rw [List.map_append, List.map_append, List.map_replicate, List.map_replicate, List.foldl_append]
      simp only [List.map_cons, List.map_nil, List.foldl_cons, List.foldl_nil, hz, hz2]
      apply Subtype.ext
      show rndF (((List.replicate n (Binary32.ofRat (-64))).foldl (· + ·) (0 : Binary32)).1 + (Binary32.ofRat (-2)).1) = _
      have hrep := ((List.replicate n (Binary32.ofRat (-64))).foldl (· + ·) (0 : Binary32)).2
      rw [hc] at hrep ⊢
      rw [v2]
      refine rnd_absorb (by norm_num) hrep ?_
      have h3 : (2097152 : ℚ) ≤ n := by exact_mod_cast (show 2097152 ≤ n by omega)
      rw [show -(64 * (n : ℚ)) + -2 - -(64 * (n : ℚ)) = -2 by ring, abs_neg, abs_neg, abs_of_nonneg (by positivity : (0 : ℚ) ≤ 64 * n), abs_of_nonneg (by norm_num : (0 : ℚ) ≤ 2)]
      norm_num
      linarith
    have ho : ((Spec.Arpa.ofData data (Binary32.ofRat (-64)) qp qb).corpus (lines n)).onlyOOVs = (List.replicate n (Binary32.ofRat (-64))).foldl (· + ·) (0 : Binary32) := by
      rw [Accuracy.corpus_oovs, hw]
      congr 1
      rw [List.flatten_append, List.filter_append, List.map_append, List.flatten_replicate_singleton]
      simp
    rw [ht, ho]
    show rndF (_ - _) = 0
    rw [sub_self]; exact rnd_zero
  · show ((lines n).map List.length).sum = _
    unfold lines
    simp
  · show ((lines n).map fun ws => ws.countP fun w => ((Spec.Arpa.ofData data (Binary32.ofRat (-64)) qp qb).entry [w]).isNone).sum = _
    unfold lines
    have he : (Spec.Arpa.ofData data (Binary32.ofRat (-64)) qp qb).entry [w 0] = some (Binary32.ofRat (-2), Binary32.ofRat (-1)) := by
      unfold Spec.Arpa.ofData
      simp [AccuracyExample.data, MphProbExample.data, conv]
    simp [entry3, he]

/-- The known word has the score -2. -/
theorem known3 (n : Nat) : (Spec.Arpa.ofData data (Binary32.ofRat (-64)) (fun _ v => v) (fun _ v => v)).exact.exactKnown (lines n) = -2 := by
  have h3 : (Spec.Arpa.ofData data (Binary32.ofRat (-64)) (fun _ v => v) (fun _ v => v)).exact.entry [w 3] = none := by
    unfold Spec.Arpa.exact
    simp only [entry3, Option.map_none]
  have h0 : (Spec.Arpa.ofData data (Binary32.ofRat (-64)) (fun _ v => v) (fun _ v => v)).exact.entry [w 0] = some ((Binary32.ofRat (-2)).1, (Binary32.ofRat (-1)).1) := by
    unfold Spec.Arpa.exact Spec.Arpa.ofData
    simp [AccuracyExample.data, MphProbExample.data, conv]
  have hs : ∀ A : Spec.Arpa (List Byte) ℚ, ∀ x : List Byte, A.scoreAt [x] 0 x = A.score [] x := by
    intro A x
    unfold Spec.Arpa.scoreAt
    rw [List.take_zero, show Spec.Arpa.lastN _ ([] : List (List Byte)) = [] from by simp [Spec.Arpa.lastN]]
  unfold Spec.Arpa.exactKnown Spec.Arpa.exactScores lines
  have hf : ∀ n : Nat, ((List.replicate n [w 3]).flatMap fun ws => ws.mapIdx fun i x =>
      ((Spec.Arpa.ofData data (Binary32.ofRat (-64)) (fun _ v => v) (fun _ v => v)).exact.scoreAt ws i x,
        ((Spec.Arpa.ofData data (Binary32.ofRat (-64)) (fun _ v => v) (fun _ v => v)).exact.entry [x]).isNone)).filter (fun p => !p.2) = [] := by
    intro n
    induction n with
    | zero => rfl
    | succ n ih =>
      rw [List.replicate_succ, List.flatMap_cons, List.filter_append, ih, List.append_nil, List.mapIdx_cons, List.mapIdx_nil, h3]
      rfl
  rw [List.flatMap_append, List.filter_append, hf, List.nil_append, List.flatMap_cons, List.flatMap_nil, List.append_nil, List.mapIdx_cons, List.mapIdx_nil, h0, hs,
    Spec.Arpa.score, h0]
  show (Binary32.ofRat (-2)).1 + 0 = -2
  rw [v2, add_zero]

end PerplexityExample

open AccuracyExample ExactExample PerplexityExample in
open MphProbExample (w w_word) in
/-- **C68** (defect of the code).  "perplexity excluding OOVs" is computed from the difference of two `float` totals, both dominated by the unknown words: in a text of n lines (2^21 ≤ n ≤ 2^24)
with one unknown word each and one line with the known word "a" (log-probability -2, so that the perplexity of the known words is 100), `score` prints 1. -/
theorem C68_known_words_lost_defect {n : Nat} (h1 : 2 ^ 21 ≤ n) (h2 : n ≤ 2 ^ 24) :
    ∃ t, TrieProb.buildArpa strtod32 fb32 (List.insertionSort (· ≤ ·)) (Binary32.ofRat (-1000)) (Binary32.ofRat (-100))
        (TextExample.mphf3 [w 0, w 1, w 2]) (GramsImpl.fastEF fun _ => FastEF.exMphf) (RanksImpl.cv fun _ => [0#64]) 1
        (Binary32.ofRat (-64)) 2 2 3 (Spec.arpaText 0 0 sections32 [nl]) = some (.ok t) ∧
      ∃ tot, (t.scorer fb32).scoreText (slice (textOf (PerplexityExample.lines n))) 0 0 (textOf (PerplexityExample.lines n)) = some tot ∧ tot.perplexityKnown = some 1 ∧
        Spec.perplexity ((Spec.Arpa.ofData AccuracyExample.data (Spec.unkProb Spec.unkText (Binary32.ofRat (-100)) (AccuracyExample.data.getD 0 []) (Binary32.ofRat (-64)))
          (fun _ v => v) (fun _ v => v)).exact.exactKnown (PerplexityExample.lines n)) (tot.tokens - tot.oovs) = 100 := by
  obtain ⟨t, qp, qb, e1, -, e3⟩ := C46_score_tool_trie 0 0 good32 fb32 sort32 (Binary32.ofRat (-1000)) (Binary32.ofRat (-100))
    (Binary32.ofRat (-64)) lists32 words32 trie32 quant32 (by decide) floats32
    (TextExample.built3 (keys := [w 0, w 1, w 2]) rfl (by decide)) hashes32 (junk := fun _ => [0#64]) (by simp)
  refine ⟨t, e1, _, e3 (PerplexityExample.lines n) 0 0 ?_, ?_, ?_⟩
  · intro l hl
    rcases List.mem_append.1 hl with hl | hl
    · rw [List.eq_of_mem_replicate hl]
      refine ⟨by simp, fun x hx => ?_⟩
      simp at hx; subst hx
      exact ⟨w_word _ (by decide), TextExample.recognised3 rfl _⟩
    · simp at hl; subst hl
      refine ⟨by simp, fun x hx => ?_⟩
      simp at hx; subst hx
      exact ⟨w_word _ (by decide), .inl (by simp)⟩
  · rw [unk32]
    obtain ⟨c1, c2, c3⟩ := corpus3 qp qb h1 h2
    unfold Totals.perplexityKnown
    rw [c1, c2, c3, if_pos (by omega)]
    simp
  · rw [unk32]
    obtain ⟨-, c2, c3⟩ := corpus3 qp qb h1 h2
    rw [c2, c3, known3]
    unfold Spec.perplexity
    norm_num

end Tongrams
