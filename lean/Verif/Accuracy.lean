import Verif.ScoreText

/-!
# Accuracy of the totals reported by `score` (C65)

`score_corpus` adds the scores of the words of a sentence, and the sums of the sentences, in variables of type `float` (score.cpp:28-29, 38, 52-53, 63).
Here, with the `float` arithmetic of IEEE 754 (Floats.lean): how far the reported totals can be from the exact sums of the word scores, and what
happens to the totals of very long texts.
-/

set_option linter.unusedSectionVars false

namespace Tongrams
open Fp

/-- Specification: the exact sum of the scores of the words of a text. -/
def Spec.exactSum (scores : List (List Binary32)) : ℚ := (scores.map fun l => (l.map fun x : Binary32 => x.1).sum).sum

namespace Accuracy

/-- A `float` is a multiple of 2^-149. -/
theorem float_multiple {x : ℚ} (hx : rndF x = x) : ∃ m : ℤ, x = m * 2 ^ (-149 : ℤ) := by
  have key : ∀ y : ℚ, rndPos 24 (-126) y = y → ∃ m : ℤ, y = m * 2 ^ (-149 : ℤ) := by
    intro y hy
    obtain ⟨k, hk⟩ : ∃ k : Nat, unitExp 24 (-126) y = k + (-149) := ⟨(unitExp 24 (-126) y + 149).toNat, by unfold unitExp; omega⟩
    refine ⟨rne (y / 2 ^ unitExp 24 (-126) y) * 2 ^ k, ?_⟩
    conv_lhs => rw [← hy]
    unfold rndPos
    rw [hk, zpow_split, zpow_natCast]
    push_cast
    ring
  unfold rndF rnd at hx
  split at hx
  · exact key x hx
  · obtain ⟨m, hm⟩ := key (-x) (by linarith)
    exact ⟨-m, by push_cast; linarith⟩

/-- The relative error of one addition of `float`s. -/
theorem add_err (a b : Binary32) : |(a + b).1 - (a.1 + b.1)| ≤ |a.1 + b.1| * 2 ^ (-24 : ℤ) := by
  show |rndF (a.1 + b.1) - (a.1 + b.1)| ≤ _
  by_cases h : (2 : ℚ) ^ (-126 : ℤ) ≤ |a.1 + b.1|
  · exact rnd_rel h
  · have : rndF (a.1 + b.1) = a.1 + b.1 := by
      obtain ⟨m, hm⟩ := float_multiple a.2
      obtain ⟨n, hn⟩ := float_multiple b.2
      have hs : a.1 + b.1 = ((m + n : ℤ) : ℚ) * 2 ^ (-149 : ℤ) := by rw [hm, hn]; push_cast; ring
      have key : ∀ (y : ℚ) (k : ℤ), y = k * 2 ^ (-149 : ℤ) → 0 < y → y < 2 ^ (-126 : ℤ) → rndPos 24 (-126) y = y := by
        intro y k hy h0 h1
        refine rndPos_repr (m := k) (k := -149) h0 hy ?_ (by norm_num) (by norm_num)
        have hp := two_zpow_pos (-149)
        rw [hy, show (-126 : ℤ) = 23 + (-149) by norm_num, zpow_split] at h1
        have h2 : (k : ℚ) < 2 ^ (23 : ℤ) := lt_of_mul_lt_mul_right h1 hp.le
        have h4 : k < 2 ^ 23 := by exact_mod_cast h2
        show k ≤ 2 ^ 24
        omega
      unfold rndF
      rcases lt_trichotomy (a.1 + b.1) 0 with hlt | he | hgt
      · rw [rnd, if_neg (not_le.2 hlt)]
        rw [abs_of_neg hlt, not_le] at h
        have := key (-(a.1 + b.1)) (-(m + n)) (by rw [hs]; push_cast; ring) (by linarith) h
        rw [this]; ring
      · rw [he]; exact rnd_zero
      · rw [rnd, if_pos hgt.le]
        rw [abs_of_pos hgt, not_le] at h
        exact key _ (m + n) hs hgt h
    rw [this, sub_self, abs_zero]
    exact mul_nonneg (abs_nonneg _) (two_zpow_pos _).le

/-- The relative error of one rounding. -/
def u : ℚ := 2 ^ (-24 : ℤ)

theorem u_pos : 0 < u := two_zpow_pos _
theorem u_lt : u < 1 := by unfold u; norm_num

theorem add_bounds {a b : Binary32} (h : a.1 + b.1 ≤ 0) : (1 + u) * (a.1 + b.1) ≤ (a + b).1 ∧ (a + b).1 ≤ (1 - u) * (a.1 + b.1) := by
  have := add_err a b
  rw [abs_of_nonpos h, abs_le] at this
  change _ ≤ _ ∧ _ ≤ -(a.1 + b.1) * u at this
  have h1 := this.1
  change -(-(a.1 + b.1) * u) ≤ _ at h1
  constructor <;> nlinarith [this.2]

theorem pow_ge (n : Nat) : 1 ≤ (1 + u) ^ n := one_le_pow₀ (by have := u_pos; linarith)
theorem pow_le (n : Nat) : (1 - u) ^ n ≤ 1 := pow_le_one₀ (by have := u_lt; linarith) (by have := u_pos; linarith)
theorem pow_pos' (n : Nat) : 0 ≤ (1 - u) ^ n := pow_nonneg (by have := u_lt; linarith) _

/-- Adding up numbers, each of which approximates a non-positive number. -/
theorem sum_bounds (L : Nat) (l : List (Binary32 × ℚ)) (h : ∀ p ∈ l, p.2 ≤ 0 ∧ (1 + u) ^ L * p.2 ≤ p.1.1 ∧ p.1.1 ≤ (1 - u) ^ L * p.2) :
    ∀ (i : Nat) (f : Binary32) (e : ℚ), e ≤ 0 → (1 + u) ^ (L + i) * e ≤ f.1 → f.1 ≤ (1 - u) ^ (L + i) * e →
      (1 + u) ^ (L + (i + l.length)) * (e + (l.map (·.2)).sum) ≤ ((l.map (·.1)).foldl (· + ·) f).1 ∧
      ((l.map (·.1)).foldl (· + ·) f).1 ≤ (1 - u) ^ (L + (i + l.length)) * (e + (l.map (·.2)).sum) := by
  induction l with
  | nil => intro i f e he h1 h2; simpa using ⟨h1, h2⟩
  | cons p l ih =>
    intro i f e he h1 h2
    obtain ⟨p0, p1, p2⟩ := h p List.mem_cons_self
    have hneg1 : f.1 ≤ 0 := by have := mul_nonneg_of_nonpos_of_nonpos he (neg_nonpos.2 (pow_pos' (L + i))); nlinarith
    have hneg2 : p.1.1 ≤ 0 := by have := mul_nonneg_of_nonpos_of_nonpos p0 (neg_nonpos.2 (pow_pos' L)); nlinarith
    obtain ⟨b1, b2⟩ := add_bounds (a := f) (b := p.1) (by linarith)
    have hu := u_pos
    have hu1 := u_lt
    have hi1 := pow_ge i
    have hi2 := pow_le i
    have hL1 := pow_ge L
    have hL2 := pow_pos' L
    have q1 : (1 + u) ^ (L + i) * p.2 ≤ (1 + u) ^ L * p.2 := by
      rw [pow_add]
      have : (1 + u) ^ L * p.2 ≤ 0 := mul_nonpos_of_nonneg_of_nonpos (by linarith) p0
      nlinarith
    have q2 : (1 - u) ^ L * p.2 ≤ (1 - u) ^ (L + i) * p.2 := by
      rw [pow_add]
      have : (1 - u) ^ L * p.2 ≤ 0 := mul_nonpos_of_nonneg_of_nonpos hL2 p0
      nlinarith
    have := ih (fun q hq => h q (List.mem_cons_of_mem _ hq)) (i + 1) (f + p.1) (e + p.2) (by linarith)
      (by
        refine le_trans ?_ b1
        rw [show L + (i + 1) = (L + i) + 1 by omega, pow_succ]
        have : (1 + u) ^ (L + i) * (e + p.2) ≤ f.1 + p.1.1 := by rw [mul_add]; linarith
        nlinarith)
      (by
        refine le_trans b2 ?_
        rw [show L + (i + 1) = (L + i) + 1 by omega, pow_succ]
        have : f.1 + p.1.1 ≤ (1 - u) ^ (L + i) * (e + p.2) := by rw [mul_add]; linarith
        nlinarith)
    rw [List.map_cons, List.map_cons, List.foldl_cons, List.length_cons, List.sum_cons, show i + (l.length + 1) = i + 1 + l.length by omega,
      ← add_assoc e]
    exact this

/-- One sentence. -/
theorem sentence_bounds (l : List Binary32) (h : ∀ x ∈ l, x.1 ≤ 0) :
    (1 + u) ^ l.length * (l.map fun x : Binary32 => x.1).sum ≤ (l.foldl (· + ·) (0 : Binary32)).1 ∧
    (l.foldl (· + ·) (0 : Binary32)).1 ≤ (1 - u) ^ l.length * (l.map fun x : Binary32 => x.1).sum := by
  have := sum_bounds 0 (l.map fun x => (x, x.1)) (by
    intro p hp
    obtain ⟨x, hx, rfl⟩ := List.mem_map.1 hp
    simpa using h x hx) 0 (0 : Binary32) 0 (le_refl _) (by show _ ≤ (0 : ℚ); simp) (by show (0 : ℚ) ≤ _; simp)
  simpa [List.map_map, Function.comp_def] using this

theorem sum_nonpos (l : List Binary32) (h : ∀ x ∈ l, x.1 ≤ 0) : (l.map fun x : Binary32 => x.1).sum ≤ 0 := by
  induction l with
  | nil => simp
  | cons x l ih =>
    rw [List.map_cons, List.sum_cons]
    have := h x List.mem_cons_self
    have := ih fun y hy => h y (List.mem_cons_of_mem _ hy)
    linarith

theorem exactSum_nonpos {scores : List (List Binary32)} (h : ∀ l ∈ scores, ∀ x ∈ l, x.1 ≤ 0) : Spec.exactSum scores ≤ 0 := by
  unfold Spec.exactSum
  induction scores with
  | nil => simp
  | cons l ls ih =>
    rw [List.map_cons, List.sum_cons]
    have := sum_nonpos l (h l List.mem_cons_self)
    have := ih fun y hy => h y (List.mem_cons_of_mem _ hy)
    linarith

/-- The total. -/
theorem total_bounds (scores : List (List Binary32)) (L : Nat) (hL : ∀ l ∈ scores, l.length ≤ L) (h : ∀ l ∈ scores, ∀ x ∈ l, x.1 ≤ 0) :
    (1 + u) ^ (L + scores.length) * Spec.exactSum scores ≤ ((scores.map fun l => l.foldl (· + ·) (0 : Binary32)).foldl (· + ·) (0 : Binary32)).1 ∧
    ((scores.map fun l => l.foldl (· + ·) (0 : Binary32)).foldl (· + ·) (0 : Binary32)).1 ≤ (1 - u) ^ (L + scores.length) * Spec.exactSum scores := by
  have := sum_bounds L (scores.map fun l => (l.foldl (· + ·) (0 : Binary32), (l.map fun x : Binary32 => x.1).sum)) (by
    intro p hp
    obtain ⟨l, hl, rfl⟩ := List.mem_map.1 hp
    obtain ⟨h1, h2⟩ := sentence_bounds l (h l hl)
    have h0 := sum_nonpos l (h l hl)
    refine ⟨h0, le_trans ?_ h1, le_trans h2 ?_⟩
    · have : (1 + u) ^ l.length ≤ (1 + u) ^ L := pow_le_pow_right₀ (by have := u_pos; linarith) (hL l hl)
      nlinarith
    · have : (1 - u) ^ L ≤ (1 - u) ^ l.length := pow_le_pow_of_le_one (by have := u_lt; linarith) (by have := u_pos; linarith) (hL l hl)
      nlinarith) 0 (0 : Binary32) 0 (le_refl _) (by show _ ≤ (0 : ℚ); simp) (by show (0 : ℚ) ≤ _; simp)
  simpa [List.map_map, Function.comp_def, Spec.exactSum] using this

/-- `(1 + u)^n` and `(1 - u)^n` for up to 2^23 roundings. -/
theorem pow_bounds (n : Nat) (hn : n ≤ 2 ^ 23) : (1 + u) ^ n ≤ 1 + n * 2 ^ (-23 : ℤ) ∧ 1 - n * 2 ^ (-23 : ℤ) ≤ (1 - u) ^ n := by
  have hu : u = 2 ^ (-23 : ℤ) / 2 := by unfold u; norm_num
  have hn' : (n : ℚ) * u ≤ 1 / 2 := by
    have : (n : ℚ) ≤ 2 ^ 23 := by exact_mod_cast hn
    have h2 : (2 : ℚ) ^ 23 * u = 1 / 2 := by unfold u; norm_num
    have := u_pos
    nlinarith
  have hu0 := u_pos
  have h1 : ∀ k : Nat, k ≤ n → (1 + u) ^ k * (1 - k * u) ≤ 1 := by
    intro k
    induction k with
    | zero => intro _; simp
    | succ k ih =>
      intro hk
      have := ih (by omega)
      have hk' : ((k : ℚ) + 1) * u ≤ 1 / 2 := by
        have : ((k : ℚ) + 1) ≤ n := by exact_mod_cast hk
        nlinarith
      have hp := pow_ge k
      push_cast
      rw [pow_succ]
      have e : (1 + u) ^ k * (1 + u) * (1 - ((k : ℚ) + 1) * u) = (1 + u) ^ k * (1 - k * u) - (1 + u) ^ k * (((k : ℚ) + 1) * u * u) := by ring
      rw [e]
      have : 0 ≤ (1 + u) ^ k * (((k : ℚ) + 1) * u * u) := by positivity
      linarith
  have h2 : ∀ k : Nat, 1 - k * u ≤ (1 - u) ^ k := by
    intro k
    induction k with
    | zero => simp
    | succ k ih =>
      rw [pow_succ]
      have := pow_pos' k
      have hu1 := u_lt
      have hk : (0 : ℚ) ≤ k := Nat.cast_nonneg k
      push_cast
      nlinarith
  constructor
  · have h3 := h1 n (le_refl _)
    have hp := pow_ge n
    have e : (n : ℚ) * 2 ^ (-23 : ℤ) = 2 * (n * u) := by rw [hu]; ring
    rw [e]
    have hx : (0 : ℚ) ≤ n * u := by positivity
    by_contra hc
    rw [not_le] at hc
    have : (1 + 2 * (n * u)) * (1 - n * u) < (1 + u) ^ n * (1 - n * u) := mul_lt_mul_of_pos_right hc (by linarith)
    nlinarith
  · refine le_trans ?_ (h2 n)
    have : (n : ℚ) * u ≤ n * 2 ^ (-23 : ℤ) := by
      rw [hu]
      have : (0 : ℚ) ≤ n * 2 ^ (-23 : ℤ) := by positivity
      nlinarith
    linarith

/-- The error of the total. -/
theorem total_err (scores : List (List Binary32)) (L : Nat) (hL : ∀ l ∈ scores, l.length ≤ L) (h : ∀ l ∈ scores, ∀ x ∈ l, x.1 ≤ 0)
    (hn : L + scores.length ≤ 2 ^ 23) :
    |((scores.map fun l => l.foldl (· + ·) (0 : Binary32)).foldl (· + ·) (0 : Binary32)).1 - Spec.exactSum scores| ≤
      (L + scores.length : Nat) * 2 ^ (-23 : ℤ) * |Spec.exactSum scores| := by
  obtain ⟨h1, h2⟩ := total_bounds scores L hL h
  obtain ⟨p1, p2⟩ := pow_bounds _ hn
  have h0 := exactSum_nonpos h
  rw [abs_of_nonpos h0, abs_le]
  constructor <;> nlinarith

/-- A sum of copies of one number stops at 2^26 times the number. -/
theorem copies_bounded (c : Binary32) (hc : c.1 ≤ 0) : ∀ (n : Nat) (f : Binary32), -(2 ^ 26 * |c.1|) ≤ f.1 → f.1 ≤ 0 →
    -(2 ^ 26 * |c.1|) ≤ ((List.replicate n c).foldl (· + ·) f).1 ∧ ((List.replicate n c).foldl (· + ·) f).1 ≤ 0 := by
  intro n
  induction n with
  | zero => intro f h1 h2; exact ⟨h1, h2⟩
  | succ n ih =>
    intro f h1 h2
    rw [List.replicate_succ, List.foldl_cons]
    apply ih
    · show _ ≤ rndF (f.1 + c.1)
      have hB : rndF (-(2 ^ 26 * |c.1|)) = -(2 ^ 26 * |c.1|) := by
        by_cases h0 : c.1 = 0
        · rw [h0, abs_zero, mul_zero, neg_zero]; exact rnd_zero
        · have hneg : c.1 < 0 := lt_of_le_of_ne hc h0
          have hr := c.2
          unfold rndF at hr ⊢
          rw [abs_of_neg hneg, rnd_neg]
          rw [rnd, if_neg (not_le.2 hneg)] at hr
          have hr' : rndPos 24 (-126) (-c.1) = -c.1 := by linarith
          have hpos : 0 < 2 ^ 26 * -c.1 := by linarith
          rw [rnd, if_pos hpos.le]
          have hlt := lt_unit (p := 24) (emin := -126) (-c.1) (by linarith)
          have hm : -c.1 = (rne (-c.1 / 2 ^ unitExp 24 (-126) (-c.1)) : ℚ) * 2 ^ unitExp 24 (-126) (-c.1) := hr'.symm
          generalize rne (-c.1 / 2 ^ unitExp 24 (-126) (-c.1)) = m at hm
          have hue : (-149 : ℤ) ≤ unitExp 24 (-126) (-c.1) := by unfold unitExp; omega
          generalize unitExp 24 (-126) (-c.1) = e at hm hlt hue
          congr 1
          refine rndPos_repr (m := m) (k := e + 26) hpos ?_ ?_ (by norm_num) (by omega)
          · rw [hm, zpow_split]; ring
          · have hp := two_zpow_pos e
            rw [hm, zpow_split, mul_comm ((2 : ℚ) ^ e)] at hlt
            have h2 : (m : ℚ) < 2 ^ (24 : ℤ) := lt_of_mul_lt_mul_right hlt hp.le
            have h4 : m < 2 ^ 24 := by exact_mod_cast h2
            show m ≤ 2 ^ 24
            omega
      have habs : rndF (-(2 ^ 26 * |c.1|) + c.1) = -(2 ^ 26 * |c.1|) := by
        refine rnd_absorb (by norm_num) hB ?_
        rw [show -(2 ^ 26 * |c.1|) + c.1 - -(2 ^ 26 * |c.1|) = c.1 by ring, abs_neg, abs_mul, abs_abs]
        have : |(2 : ℚ) ^ 26| = 2 ^ 26 := by norm_num
        rw [this]
        apply le_of_eq
        norm_num
        ring
      rw [← habs]
      exact rndF_mono (by linarith)
    · show rndF (f.1 + c.1) ≤ 0
      have : rndF (f.1 + c.1) ≤ rndF 0 := rndF_mono (by linarith)
      rwa [show rndF 0 = 0 from rnd_zero] at this

end Accuracy

namespace Accuracy

theorem corpus_total {K : Type} (A : Spec.Arpa K Binary32) (text : List (List K)) :
    (A.corpus text).total = (((text.map A.wordScores).map (·.map (·.1))).map fun l => l.foldl (· + ·) (0 : Binary32)).foldl (· + ·) (0 : Binary32) := by
  unfold Spec.Arpa.corpus Spec.Arpa.sentenceScore
  simp only [List.map_map]
  congr 1
  apply List.map_congr_left
  intro l _
  simp only [Function.comp_apply]
  rw [List.foldl_map]

theorem corpus_oovs {K : Type} (A : Spec.Arpa K Binary32) (text : List (List K)) :
    (A.corpus text).onlyOOVs = ((((text.map A.wordScores).flatten.filter (·.2)).map (·.1))).foldl (· + ·) (0 : Binary32) := by
  unfold Spec.Arpa.corpus
  simp only [List.flatMap_def]
  rw [List.foldl_map]

end Accuracy

/-- Specification: the two totals reported for a text are close to the exact sums of the scores `scores` of its words (each with its mark of an unknown
word): at most (words of a sentence + sentences) / 2^23 of the exact sum of all words away from it, and at most (unknown words) / 2^23 of the
exact sum of the unknown words away from that. -/
structure Spec.Accurate (scores : List (List (Binary32 × Bool))) (L : Nat) (tot : Totals Binary32) : Prop where
  total : L + scores.length ≤ 2 ^ 23 → |tot.total.1 - Spec.exactSum (scores.map (·.map (·.1)))| ≤
    ((L + scores.length : Nat) : ℚ) / 2 ^ 23 * |Spec.exactSum (scores.map (·.map (·.1)))|
  onlyOOVs : scores.flatten.countP (·.2) ≤ 2 ^ 23 → |tot.onlyOOVs.1 - Spec.exactSum [(scores.flatten.filter (·.2)).map (·.1)]| ≤
    (scores.flatten.countP (·.2) : ℚ) / 2 ^ 23 * |Spec.exactSum [(scores.flatten.filter (·.2)).map (·.1)]|

theorem Accuracy.corpus_accurate {K : Type} (A : Spec.Arpa K Binary32) (text : List (List K)) (L : Nat) (hL : ∀ l ∈ text, l.length ≤ L)
    (hneg : ∀ l ∈ text, ∀ p ∈ A.wordScores l, p.1 ≤ 0) : Spec.Accurate (text.map A.wordScores) L (A.corpus text) where
  total hn := by
    have := Accuracy.total_err ((text.map A.wordScores).map (·.map (·.1))) L (by
      intro l hl
      simp only [List.map_map, List.mem_map, Function.comp_apply] at hl
      obtain ⟨s, hs, rfl⟩ := hl
      rw [List.length_map, Spec.Arpa.wordScores, List.length_mapIdx]
      exact hL s hs) (by
      intro l hl x hx
      simp only [List.map_map, List.mem_map, Function.comp_apply] at hl
      obtain ⟨s, hs, rfl⟩ := hl
      obtain ⟨p, hp, rfl⟩ := List.mem_map.1 hx
      exact hneg s hs p hp) (by rw [List.length_map]; exact hn)
    rw [Accuracy.corpus_total]
    rw [List.length_map] at this
    refine le_trans this (le_of_eq ?_)
    rw [zpow_neg, div_eq_mul_inv]
    norm_cast
  onlyOOVs hn := by
    rw [Accuracy.corpus_oovs]
    have hlen : ((((text.map A.wordScores).flatten.filter (·.2)).map (·.1))).length = (text.map A.wordScores).flatten.countP (·.2) := by
      rw [List.length_map, ← List.countP_eq_length_filter]
    have hneg' : ∀ x ∈ (((text.map A.wordScores).flatten.filter (·.2)).map (·.1)), x.1 ≤ 0 := by
      intro x hx
      obtain ⟨p, hp, rfl⟩ := List.mem_map.1 hx
      obtain ⟨s, hs, hps⟩ := List.mem_flatten.1 (List.mem_filter.1 hp).1
      obtain ⟨l, hl, rfl⟩ := List.mem_map.1 hs
      exact hneg l hl p hps
    obtain ⟨h1, h2⟩ := Accuracy.sentence_bounds _ hneg'
    have h0 := Accuracy.sum_nonpos _ hneg'
    rw [hlen] at h1 h2
    obtain ⟨p1, p2⟩ := Accuracy.pow_bounds _ hn
    have e : Spec.exactSum [(((text.map A.wordScores).flatten.filter (·.2)).map (·.1))] =
        ((((text.map A.wordScores).flatten.filter (·.2)).map (·.1)).map fun x : Binary32 => x.1).sum := by
      unfold Spec.exactSum; simp
    rw [e, abs_of_nonpos h0, abs_le]
    have e2 : (2 : ℚ) ^ (-23 : ℤ) = 1 / 2 ^ 23 := by norm_num
    rw [e2] at p1 p2
    have e3 : ∀ n : ℚ, n * (1 / 2 ^ 23) = n / 2 ^ 23 := by intro n; ring
    rw [e3] at p1 p2
    constructor <;> nlinarith

/-- **C65** (trie).  With `float` arithmetic as in IEEE 754 (without overflow): for every text whose word scores are log-probabilities (not positive), the total that
`score` reports differs from the exact sum of the word scores by at most (L + S) / 2^23 of it, for S sentences of up to L words (L + S ≤ 2^23), and likewise the total of
the unknown words.  The word scores are those of C27. -/
theorem C65_trie_totals_are_accurate {strtod : List Byte → Binary32 × Nat} (lead gap : Nat) {sections : List (List (Spec.ArpaLine Binary32) × Nat)}
    {tail : List Byte} (hg : Spec.GoodArpa strtod sections tail) (fb : FloatBits Binary32) {sort : List Binary32 → List Binary32}
    (hsort : ∀ l, (sort l).Perm l ∧ (sort l).Pairwise (· ≤ ·))
    (negInf default unk : Binary32) {U : List (List Byte)} {data : List (List (List (List Byte) × Binary32 × Binary32))} {ro pb bb : Nat}
    (hd : Spec.ArpaLists sections data) (hwords : ∀ f ∈ data, ∀ r ∈ f, ∀ w ∈ r.1, w ≠ [] ∧ sp ∉ w)
    (h : Spec.ProbFiles U data ro) (hq : Spec.Quantisable data pb bb) (hbits : pb + bb ≤ 58)
    (hfb : ∀ f0, data[0]? = some f0 → ∀ r ∈ f0, fb.dec (fb.enc r.2.1) = r.2.1 ∧ fb.dec (fb.enc r.2.2) = r.2.2)
    {hv : Mphf (List Byte) 64} (hb : hv.BuiltFrom U) {hr : Nat → Mphf Nat 64} (hh : Spec.RangeHashes hr (TrieProb.asCounts data))
    {junk : Nat → List W} (hj : ∀ k, junk k ≠ []) :
    ∃ t qp qb, TrieProb.buildArpa strtod fb sort negInf default hv (GramsImpl.fastEF hr) (RanksImpl.cv junk) ro unk pb bb sections.length
        (Spec.arpaText lead gap sections tail) = some (.ok t) ∧
      Spec.Quantised data pb bb qp qb ∧
      ∀ A, A = Spec.Arpa.ofData data (Spec.unkProb Spec.unkText default (data.getD 0 []) unk) qp qb →
      ∀ (text : List (List (List Byte))) (d L : Nat) (one : Binary32), (∀ l ∈ text, l ≠ [] ∧ ∀ w ∈ l, Spec.IsWord w ∧ Spec.Recognised hv U w) →
        (∀ l ∈ text, l.length ≤ L) → (∀ l ∈ text, ∀ p ∈ A.wordScores l, p.1 ≤ 0) →
        ∃ tot, (t.scorer fb).scoreText (slice (textOf text)) d one (textOf text) = some tot ∧ Spec.Accurate (text.map A.wordScores) L tot := by
  obtain ⟨t, qp, qb, e1, e2, e3⟩ := C46_score_tool_trie lead gap hg fb hsort negInf default unk hd hwords h hq hbits hfb hb hh hj
  refine ⟨t, qp, qb, e1, e2, ?_⟩
  rintro A rfl text d L one ht hL hneg
  exact ⟨_, e3 text d one ht, Accuracy.corpus_accurate _ text L hL hneg⟩

/-- **C65** (hash model). -/
theorem C65_mph_totals_are_accurate {B : Nat} {strtod : List Byte → Binary32 × Nat} (lead gap : Nat) {sections : List (List (Spec.ArpaLine Binary32) × Nat)}
    {tail : List Byte} (hg : Spec.GoodArpa strtod sections tail) (fb : FloatBits Binary32) {sort : List Binary32 → List Binary32}
    (hsort : ∀ l, (sort l).Perm l ∧ (sort l).Pairwise (· ≤ ·)) (negInf default unk : Binary32) {mem pb bb : Nat} (extra : Nat)
    {hs : Nat → Mphf (List Byte) B} {data : List (List (List (List Byte) × Binary32 × Binary32))}
    (hd : Spec.ArpaLists sections data) (h : Spec.MphProbInput fb mem pb bb hs data) :
    ∃ m qp qb, MphProb.buildArpa strtod fb sort negInf default unk mem extra hs pb bb sections.length (Spec.arpaText lead gap sections tail) = some (.ok m) ∧
      Spec.Quantised data pb bb qp qb ∧
      ∀ A, A = Spec.Arpa.ofData data (Spec.unkProb Spec.unkText default (data.getD 0 []) unk) qp qb →
      ∀ (text : List (List (List Byte))) (d L : Nat) (one : Binary32), (∀ l ∈ text, l ≠ [] ∧ ∀ w ∈ l, Spec.IsWord w) →
        (∀ l ∈ text, Spec.GramsRecognised hs data l) → (∀ l ∈ text, l.length ≤ L) → (∀ l ∈ text, ∀ p ∈ A.wordScores l, p.1 ≤ 0) →
        ∃ tot, (m.scorer fb (textOf text)).scoreText id d one (textOf text) = some tot ∧ Spec.Accurate (text.map A.wordScores) L tot := by
  obtain ⟨m, qp, qb, e1, e2, e3⟩ := C46_score_tool_mph lead gap hg fb hsort negInf default unk extra hd h
  refine ⟨m, qp, qb, e1, e2, ?_⟩
  rintro A rfl text d L one ht hr hL hneg
  exact ⟨_, e3 text d one ht hr, Accuracy.corpus_accurate _ text L hL hneg⟩

/-- **C65** (defect of the code).  The total is a `float`: in a text that consists of one sentence (of score `c < 0`) repeated any number `n` of times the reported total
never goes below `2^26 * c`, whereas the exact sum is `n * c`: the log-probability, and the perplexity computed from it, of a text of more than some ten
million sentences are wrong. -/
theorem C65_long_text_total_stops_defect {strtod : List Byte → Binary32 × Nat} (lead gap : Nat) {sections : List (List (Spec.ArpaLine Binary32) × Nat)}
    {tail : List Byte} (hg : Spec.GoodArpa strtod sections tail) (fb : FloatBits Binary32) {sort : List Binary32 → List Binary32}
    (hsort : ∀ l, (sort l).Perm l ∧ (sort l).Pairwise (· ≤ ·))
    (negInf default unk : Binary32) {U : List (List Byte)} {data : List (List (List (List Byte) × Binary32 × Binary32))} {ro pb bb : Nat}
    (hd : Spec.ArpaLists sections data) (hwords : ∀ f ∈ data, ∀ r ∈ f, ∀ w ∈ r.1, w ≠ [] ∧ sp ∉ w)
    (h : Spec.ProbFiles U data ro) (hq : Spec.Quantisable data pb bb) (hbits : pb + bb ≤ 58)
    (hfb : ∀ f0, data[0]? = some f0 → ∀ r ∈ f0, fb.dec (fb.enc r.2.1) = r.2.1 ∧ fb.dec (fb.enc r.2.2) = r.2.2)
    {hv : Mphf (List Byte) 64} (hb : hv.BuiltFrom U) {hr : Nat → Mphf Nat 64} (hh : Spec.RangeHashes hr (TrieProb.asCounts data))
    {junk : Nat → List W} (hj : ∀ k, junk k ≠ []) :
    ∃ t qp qb, TrieProb.buildArpa strtod fb sort negInf default hv (GramsImpl.fastEF hr) (RanksImpl.cv junk) ro unk pb bb sections.length
        (Spec.arpaText lead gap sections tail) = some (.ok t) ∧
      Spec.Quantised data pb bb qp qb ∧
      ∀ A, A = Spec.Arpa.ofData data (Spec.unkProb Spec.unkText default (data.getD 0 []) unk) qp qb →
      ∀ (sentence : List (List Byte)) (n d : Nat) (one : Binary32), sentence ≠ [] → (∀ w ∈ sentence, Spec.IsWord w ∧ Spec.Recognised hv U w) →
        A.sentenceScore sentence ≤ 0 →
        ∃ tot, (t.scorer fb).scoreText (slice (textOf (List.replicate n sentence))) d one (textOf (List.replicate n sentence)) = some tot ∧
          tot.sentences = n ∧ 2 ^ 26 * (A.sentenceScore sentence).1 ≤ tot.total.1 := by
  obtain ⟨t, qp, qb, e1, e2, e3⟩ := C46_score_tool_trie lead gap hg fb hsort negInf default unk hd hwords h hq hbits hfb hb hh hj
  refine ⟨t, qp, qb, e1, e2, ?_⟩
  rintro A rfl sentence n d one hne ht hneg
  refine ⟨_, e3 _ d one (fun l hl => by rw [List.eq_of_mem_replicate hl]; exact ⟨hne, ht⟩), by simp [Spec.Arpa.corpus], ?_⟩
  generalize Spec.Arpa.ofData data (Spec.unkProb Spec.unkText default (data.getD 0 []) unk) qp qb = A at hneg ⊢
  have hc : (A.sentenceScore sentence).1 ≤ 0 := hneg
  have := (Accuracy.copies_bounded (A.sentenceScore sentence) hc n 0 (by show _ ≤ (0 : ℚ); have := abs_nonneg (A.sentenceScore sentence).1; linarith)
    (le_refl _)).1
  rw [abs_of_nonpos hc] at this
  show _ ≤ (((List.replicate n sentence).map A.sentenceScore).foldl (· + ·) (0 : Binary32)).1
  rw [List.map_replicate]
  linarith

namespace AccuracyExample
open FilesExample

/-- The values of C44's example as `float`s. -/
def conv (x : ℚ × ℚ) : Binary32 × Binary32 := (Binary32.ofRat x.1, Binary32.ofRat x.2)
def data : List (List (List (List Byte) × Binary32 × Binary32)) := MphProbExample.data.map (·.map fun r => (r.1, conv r.2))
def convLine (l : Spec.ArpaLine ℚ) : Spec.ArpaLine Binary32 := ⟨l.probText, l.gram, l.backoffText, Binary32.ofRat l.prob, Binary32.ofRat l.backoff⟩
def sections32 : List (List (Spec.ArpaLine Binary32) × Nat) := sections.map fun s => (s.1.map convLine, s.2)
def strtod32 (s : List Byte) : Binary32 × Nat := (Binary32.ofRat (strtod s).1, (strtod s).2)
def fb32 : FloatBits Binary32 := ⟨fun x => BitVec.ofInt 32 x.1.num, fun b => Binary32.ofRat (b.toInt : ℚ)⟩

theorem good32 : Spec.GoodArpa strtod32 sections32 [nl] where
  nonempty := by simp [sections32, sections]
  counts := by
    intro s hs
    obtain ⟨s0, h0, rfl⟩ := List.mem_map.1 hs
    simpa using good.counts s0 h0
  lines := by
    intro s hs l hl
    obtain ⟨s0, h0, rfl⟩ := List.mem_map.1 hs
    obtain ⟨l0, g0, rfl⟩ := List.mem_map.1 hl
    obtain ⟨h1, h2, h3, h4⟩ := good.lines s0 h0 l0 g0
    exact ⟨h1, h2, fun rest => by unfold strtod32; rw [show (convLine l0).probText = l0.probText from rfl, h3 rest]; rfl,
      fun t ht => by unfold strtod32; rw [h4 t ht]; rfl⟩
  last := by
    intro s hs
    unfold sections32 at hs
    rw [List.getLast?_map] at hs
    obtain ⟨s0, h0, rfl⟩ := Option.map_eq_some_iff.1 hs
    exact good.last s0 h0
  tail := good.tail

end AccuracyExample

namespace AccuracyExample
open FilesExample

theorem conv_neg {q : ℚ} {m : ℤ} {k : ℤ} (h : q = -(m * 2 ^ k)) (hm : 0 < m) (hm2 : m ≤ 2 ^ 24) (hk : -149 ≤ k) : (Binary32.ofRat q).1 = q := by
  show rndF q = q
  have hp := two_zpow_pos k
  have hm' : (0 : ℚ) < m := by exact_mod_cast hm
  unfold rndF
  rw [h, rnd_neg, rnd, if_pos (by positivity), rndPos_repr (p := 24) (emin := -126) (m := m) (k := k) (by positivity) rfl (show m ≤ 2 ^ (24 : ℤ).toNat from hm2)
    (by norm_num) (by omega)]

theorem v2 : (Binary32.ofRat (-2)).1 = -2 := conv_neg (m := 2) (k := 0) (by norm_num) (by norm_num) (by norm_num) (by norm_num)
theorem v3 : (Binary32.ofRat (-3)).1 = -3 := conv_neg (m := 3) (k := 0) (by norm_num) (by norm_num) (by norm_num) (by norm_num)
theorem v1 : (Binary32.ofRat (-1)).1 = -1 := conv_neg (m := 1) (k := 0) (by norm_num) (by norm_num) (by norm_num) (by norm_num)
theorem v8 : (Binary32.ofRat (-1/8)).1 = -1/8 := conv_neg (m := 1) (k := -3) (by norm_num) (by norm_num) (by norm_num) (by norm_num)

theorem conv_nonpos {q : ℚ} (h : q ≤ 0) : ¬ (0 : Binary32) < Binary32.ofRat q := by
  rw [not_lt]
  show rndF q ≤ 0
  have := rndF_mono h
  rwa [show rndF 0 = 0 from rnd_zero] at this

theorem lists32 : Spec.ArpaLists sections32 data := by
  have h0 : Binary32.ofRat 0 = 0 := Subtype.ext rnd_zero
  have hrec : ∀ l : Spec.ArpaLine ℚ, l.prob ≤ 0 → (convLine l).record = (l.record.1, conv l.record.2) := by
    intro l hl
    unfold Spec.ArpaLine.record convLine conv
    simp only
    rw [if_neg (conv_nonpos hl), if_neg (not_lt.2 hl)]
    cases l.backoffText with
    | none => simp only [h0]
    | some t => rfl
  have hneg : ∀ s ∈ sections, ∀ l ∈ s.1, l.prob ≤ 0 := by decide +kernel
  have hl : sections.map (fun s => s.1.map (·.record)) = Spec.lines MphProbExample.data := lists
  unfold Spec.ArpaLists sections32 data Spec.lines
  have e : ∀ s ∈ sections, ((fun s : List (Spec.ArpaLine Binary32) × Nat => s.1.map (·.record)) ∘ fun s => (s.1.map convLine, s.2)) s =
      ((fun f : List (List Byte × ℚ × ℚ) => f.map fun r => (r.1, conv r.2)) ∘ fun s => s.1.map (·.record)) s := by
    intro s hs
    simp only [Function.comp_apply, List.map_map]
    apply List.map_congr_left
    intro l hl
    exact hrec l (hneg s hs l hl)
  rw [List.map_map, List.map_congr_left e, ← List.map_map, hl]
  unfold Spec.lines
  simp only [List.map_map]
  apply List.map_congr_left
  intro f _
  simp only [Function.comp_apply, List.map_map]
  apply List.map_congr_left
  intro r _
  rfl

theorem keys {f : List (List (List Byte) × Binary32 × Binary32)} (hf : f ∈ data) : ∃ f0 ∈ MphProbExample.data, f = f0.map fun r => (r.1, conv r.2) := by
  obtain ⟨f0, h0, rfl⟩ := List.mem_map.1 hf
  exact ⟨f0, h0, rfl⟩

theorem keys? {k : Nat} {f : List (List (List Byte) × Binary32 × Binary32)} (hf : data[k]? = some f) :
    ∃ f0, MphProbExample.data[k]? = some f0 ∧ f = f0.map fun r => (r.1, conv r.2) := by
  unfold data at hf
  rw [List.getElem?_map] at hf
  obtain ⟨f0, h0, rfl⟩ := Option.map_eq_some_iff.1 hf
  exact ⟨f0, h0, rfl⟩

theorem words32 : ∀ f ∈ data, ∀ r ∈ f, ∀ w ∈ r.1, w ≠ [] ∧ sp ∉ w := by
  intro f hf r hr
  obtain ⟨f0, h0, rfl⟩ := keys hf
  obtain ⟨r0, g0, rfl⟩ := List.mem_map.1 hr
  exact data_words f0 h0 r0 g0

theorem trie32 : Spec.ProbFiles [MphProbExample.w 0, MphProbExample.w 1, MphProbExample.w 2] data 1 where
  arpa := by
    have A := MphProbExample.data_input.arpa
    have hk : ∀ f0 : List (List (List Byte) × ℚ × ℚ), (f0.map fun r => (r.1, conv r.2)).map (·.1) = f0.map (·.1) := by
      intro f0; rw [List.map_map]; rfl
    refine ⟨by simpa [data] using A.order_min, by simpa [data] using A.order_max, ?_, ?_, ?_, ?_, ?_⟩
    · intro k f hf r hr
      obtain ⟨f0, h0, rfl⟩ := keys? hf
      obtain ⟨r0, g0, rfl⟩ := List.mem_map.1 hr
      exact A.len k f0 h0 r0 g0
    · intro f hf
      obtain ⟨f0, h0, rfl⟩ := keys hf
      rw [hk]; exact A.distinct f0 h0
    · intro f hf
      obtain ⟨f0, h0, rfl⟩ := keys hf
      simpa using A.nonempty f0 h0
    · intro k f f' hf hf' r hr
      obtain ⟨f0, h0, rfl⟩ := keys? hf
      obtain ⟨f1, h1, rfl⟩ := keys? hf'
      obtain ⟨r0, g0, rfl⟩ := List.mem_map.1 hr
      rw [hk]; exact A.suffixes k f0 f1 h0 h1 r0 g0
    · intro k f f' hf hf' r hr
      obtain ⟨f0, h0, rfl⟩ := keys? hf
      obtain ⟨f1, h1, rfl⟩ := keys? hf'
      obtain ⟨r0, g0, rfl⟩ := List.mem_map.1 hr
      rw [hk]; exact A.prefixes k f0 f1 h0 h1 r0 g0
  trie := by
    have := MphProbExample.data_trie.trie
    have e : data.map (·.map (·.1.reverse)) = MphProbExample.data.map (·.map (·.1.reverse)) := by
      unfold data
      rw [List.map_map]
      apply List.map_congr_left
      intro f _
      simp only [Function.comp_apply, List.map_map]
      rfl
    rw [e]; exact this
  remapping := by decide
  size := by
    intro f hf
    obtain ⟨f0, h0, rfl⟩ := keys hf
    rw [List.length_map]; exact MphProbExample.data_trie.size f0 h0

theorem ne8 : Binary32.ofRat (-1/8) ≠ 0 := by
  intro h
  have := congrArg Subtype.val h
  rw [v8] at this
  exact absurd this (by show ¬ (-1/8 : ℚ) = 0; norm_num)

theorem quant32 : Spec.Quantisable data 2 2 where
  probs := by decide
  backoffs := by decide
  probs_size := by intro f hf; simp [data, MphProbExample.data] at hf; rcases hf with rfl | rfl <;> simp
  backoffs_size := by
    intro f hf
    simp [data, MphProbExample.data] at hf
    subst hf
    right
    have := ne8
    simp [conv, this]
  probs_bins := by
    intro f hf
    simp [data, MphProbExample.data] at hf
    rcases hf with rfl | rfl <;> (show _ ≤ 2 ^ 24; simp)
  backoffs_bins := by
    intro f hf
    simp [data, MphProbExample.data] at hf
    subst hf
    show _ ≤ 2 ^ 24
    refine le_trans (Nat.succ_le_succ (Nat.div_le_div_right (List.length_filter_le _ _))) ?_
    simp

theorem floats32 : ∀ f0, data[0]? = some f0 → ∀ r ∈ f0, fb32.dec (fb32.enc r.2.1) = r.2.1 ∧ fb32.dec (fb32.enc r.2.2) = r.2.2 := by
  intro f hf r hr
  simp [data, MphProbExample.data] at hf
  subst hf
  have e2 : fb32.dec (fb32.enc (Binary32.ofRat (-2))) = Binary32.ofRat (-2) := by
    show Binary32.ofRat ((BitVec.ofInt 32 (Binary32.ofRat (-2)).1.num).toInt : ℚ) = _
    rw [v2]; rfl
  have e3 : fb32.dec (fb32.enc (Binary32.ofRat (-3))) = Binary32.ofRat (-3) := by
    show Binary32.ofRat ((BitVec.ofInt 32 (Binary32.ofRat (-3)).1.num).toInt : ℚ) = _
    rw [v3]; rfl
  have e1 : fb32.dec (fb32.enc (Binary32.ofRat (-1))) = Binary32.ofRat (-1) := by
    show Binary32.ofRat ((BitVec.ofInt 32 (Binary32.ofRat (-1)).1.num).toInt : ℚ) = _
    rw [v1]; rfl
  simp at hr
  rcases hr with rfl | rfl | rfl <;> simp only [conv] <;> exact ⟨by assumption, by assumption⟩

theorem hashes32 : Spec.RangeHashes (fun _ => FastEF.exMphf) (TrieProb.asCounts data) := by
  have e : TrieProb.asCounts data = TrieProb.asCounts MphProbExample.data := by
    unfold TrieProb.asCounts data
    rw [List.map_map]
    apply List.map_congr_left
    intro f _
    simp only [Function.comp_apply, List.map_map]
    rfl
  rw [e]; exact MphProbExample.data_hashes

/-- Sorting, for the example. -/
theorem sort32 (l : List Binary32) : (l.insertionSort (· ≤ ·)).Perm l ∧ (l.insertionSort (· ≤ ·)).Pairwise (· ≤ ·) :=
  ⟨List.perm_insertionSort _ _, List.pairwise_insertionSort _ _⟩

theorem wordScores32 (u : Binary32) (qp qb : Nat → Binary32 → Binary32) :
    (Spec.Arpa.ofData data u qp qb).wordScores [MphProbExample.w 0] = [(Binary32.ofRat (-2), false)] := by
  have he : (Spec.Arpa.ofData data u qp qb).entry [MphProbExample.w 0] = some (Binary32.ofRat (-2), Binary32.ofRat (-1)) := by
    unfold Spec.Arpa.ofData
    simp [data, MphProbExample.data, conv]
  unfold Spec.Arpa.wordScores
  rw [List.mapIdx_cons, List.mapIdx_nil, he]
  unfold Spec.Arpa.keptScoreAt
  rw [List.take_zero, show Spec.Arpa.lastN _ ([] : List (List Byte)) = [] from by simp [Spec.Arpa.lastN], Spec.Arpa.score, he]
  rfl

theorem neg2 : Binary32.ofRat (-2) ≤ 0 := by
  show (Binary32.ofRat (-2)).1 ≤ 0
  rw [v2]; norm_num

theorem score32 (u : Binary32) (qp qb : Nat → Binary32 → Binary32) :
    ((Spec.Arpa.ofData data u qp qb).sentenceScore [MphProbExample.w 0]).1 = -2 := by
  unfold Spec.Arpa.sentenceScore
  rw [wordScores32]
  show rndF (0 + (Binary32.ofRat (-2)).1) = -2
  rw [v2, zero_add]
  exact v2

/-- The ARPA file of C44's example with `float`s: the text of any number of lines "a" (of score -2), through `score`. -/
example : ∃ t, TrieProb.buildArpa strtod32 fb32 (List.insertionSort (· ≤ ·)) (Binary32.ofRat (-1000)) (Binary32.ofRat (-100))
      (TextExample.mphf3 [MphProbExample.w 0, MphProbExample.w 1, MphProbExample.w 2]) (GramsImpl.fastEF fun _ => FastEF.exMphf) (RanksImpl.cv fun _ => [0#64]) 1
      (Binary32.ofRat (-100)) 2 2 3 (Spec.arpaText 0 0 sections32 [nl]) = some (.ok t) ∧
    ∀ n, ∃ tot, (t.scorer fb32).scoreText (slice (textOf (List.replicate n [MphProbExample.w 0]))) 0 0 (textOf (List.replicate n [MphProbExample.w 0])) = some tot ∧
      tot.sentences = n ∧ -2 ^ 27 ≤ tot.total.1 := by
  obtain ⟨t, qp, qb, e1, -, e3⟩ := C65_long_text_total_stops_defect 0 0 good32 fb32 sort32 (Binary32.ofRat (-1000)) (Binary32.ofRat (-100))
    (Binary32.ofRat (-100)) lists32 words32 trie32 quant32 (by decide) floats32
    (TextExample.built3 (keys := [MphProbExample.w 0, MphProbExample.w 1, MphProbExample.w 2]) rfl (by decide)) hashes32 (junk := fun _ => [0#64]) (by simp)
  refine ⟨t, e1, fun n => ?_⟩
  have hA := score32 (Spec.unkProb Spec.unkText (Binary32.ofRat (-100)) (data.getD 0 []) (Binary32.ofRat (-100))) qp qb
  obtain ⟨tot, t1, t2, t3⟩ := e3 _ rfl [MphProbExample.w 0] n 0 0 (by simp) (by
    intro w hw
    simp at hw; subst hw
    exact ⟨MphProbExample.w_word _ (by decide), .inl (by simp)⟩) (by show _ ≤ (0 : ℚ); rw [hA]; norm_num)
  rw [hA] at t3
  exact ⟨tot, t1, t2, by norm_num at t3 ⊢; exact t3⟩

/-- The same model and a text of a million lines "a": the reported total is within an eighth of -2000000. -/
example : ∃ t, TrieProb.buildArpa strtod32 fb32 (List.insertionSort (· ≤ ·)) (Binary32.ofRat (-1000)) (Binary32.ofRat (-100))
      (TextExample.mphf3 [MphProbExample.w 0, MphProbExample.w 1, MphProbExample.w 2]) (GramsImpl.fastEF fun _ => FastEF.exMphf) (RanksImpl.cv fun _ => [0#64]) 1
      (Binary32.ofRat (-100)) 2 2 3 (Spec.arpaText 0 0 sections32 [nl]) = some (.ok t) ∧
    ∃ tot, (t.scorer fb32).scoreText (slice (textOf (List.replicate 1000000 [MphProbExample.w 0]))) 0 0 (textOf (List.replicate 1000000 [MphProbExample.w 0])) = some tot ∧
      |tot.total.1 + 2000000| ≤ 2000000 / 8 := by
  obtain ⟨t, qp, qb, e1, -, e3⟩ := C65_trie_totals_are_accurate 0 0 good32 fb32 sort32 (Binary32.ofRat (-1000)) (Binary32.ofRat (-100))
    (Binary32.ofRat (-100)) lists32 words32 trie32 quant32 (by decide) floats32
    (TextExample.built3 (keys := [MphProbExample.w 0, MphProbExample.w 1, MphProbExample.w 2]) rfl (by decide)) hashes32 (junk := fun _ => [0#64]) (by simp)
  have key : ∀ n : Nat, 1 + n ≤ 2 ^ 23 → ∃ tot, (t.scorer fb32).scoreText (slice (textOf (List.replicate n [MphProbExample.w 0]))) 0 0
      (textOf (List.replicate n [MphProbExample.w 0])) = some tot ∧ |tot.total.1 - n * -2| ≤ ((1 + n : Nat) : ℚ) / 2 ^ 23 * |(n : ℚ) * -2| := by
    intro n hn
    obtain ⟨tot, t1, t2⟩ := e3 _ rfl (List.replicate n [MphProbExample.w 0]) 0 1 0 (by
      intro l hl
      rw [List.eq_of_mem_replicate hl]
      refine ⟨by simp, fun w hw => ?_⟩
      simp at hw; subst hw
      exact ⟨MphProbExample.w_word _ (by decide), .inl (by simp)⟩) (by
      intro l hl
      rw [List.eq_of_mem_replicate hl]; simp) (by
      intro l hl p hp
      rw [List.eq_of_mem_replicate hl, wordScores32] at hp
      simp at hp; subst hp
      exact neg2)
    have := t2.total (by simpa using hn)
    have he : Spec.exactSum (((List.replicate n [MphProbExample.w 0]).map
        (Spec.Arpa.ofData data (Spec.unkProb Spec.unkText (Binary32.ofRat (-100)) (data.getD 0 []) (Binary32.ofRat (-100))) qp qb).wordScores).map (·.map (·.1))) = n * -2 := by
      rw [List.map_replicate, wordScores32, List.map_replicate, Spec.exactSum, List.map_replicate]
      simp [v2]
    rw [he] at this
    rw [List.length_map, List.length_replicate] at this
    exact ⟨tot, t1, this⟩
  obtain ⟨tot, t1, t2⟩ := key 1000000 (by norm_num)
  refine ⟨t, e1, tot, t1, ?_⟩
  have e : (tot.total.1 : ℚ) - (1000000 : Nat) * -2 = tot.total.1 + 2000000 := by norm_num
  rw [e] at t2
  refine le_trans t2 ?_
  norm_num [abs_of_neg]

theorem input32 : Spec.MphProbInput fb32 200 2 2 MphProbExample.hs data where
  arpa := trie32.arpa
  bytes := by
    refine ⟨?_, ?_⟩
    · intro f hf r hr
      obtain ⟨f0, h0, rfl⟩ := keys hf
      obtain ⟨r0, g0, rfl⟩ := List.mem_map.1 hr
      exact MphProbExample.data_input.bytes.words f0 h0 r0 g0
    · intro f hf
      obtain ⟨f0, h0, rfl⟩ := keys hf
      rw [List.map_map]
      exact MphProbExample.data_input.bytes.memory f0 h0
  quant := quant32
  hashes := by
    intro k f hf
    obtain ⟨f0, h0, rfl⟩ := keys? hf
    rw [List.map_map]
    exact MphProbExample.hs_built k f0 h0
  bits := .inl ⟨rfl, by decide, by
    intro f hf
    obtain ⟨f0, h0, rfl⟩ := keys hf
    rw [List.length_map]
    have : f0.length * 3 < 2 ^ 56 := MphProbExample.data_trie.size f0 h0
    omega⟩
  floats := floats32
  notNaN := by
    intro f hf r hr
    simp [data, MphProbExample.data] at hf
    subst hf
    have e2 : fb32.enc (Binary32.ofRat (-2)) = BitVec.ofInt 32 (-2) := by
      show BitVec.ofInt 32 (Binary32.ofRat (-2)).1.num = _
      rw [v2]; rfl
    have e3 : fb32.enc (Binary32.ofRat (-3)) = BitVec.ofInt 32 (-3) := by
      show BitVec.ofInt 32 (Binary32.ofRat (-3)).1.num = _
      rw [v3]; rfl
    have e1 : fb32.enc (Binary32.ofRat (-1)) = BitVec.ofInt 32 (-1) := by
      show BitVec.ofInt 32 (Binary32.ofRat (-1)).1.num = _
      rw [v1]; rfl
    simp at hr
    rcases hr with rfl | rfl | rfl <;> simp only [conv, e1, e2, e3] <;> decide

/-- The hash model of the same file, and two lines "a". -/
example : ∃ m, MphProb.buildArpa strtod32 fb32 (List.insertionSort (· ≤ ·)) (Binary32.ofRat (-1000)) (Binary32.ofRat (-100)) (Binary32.ofRat (-100)) 200 5
      MphProbExample.hs 2 2 3 (Spec.arpaText 0 0 sections32 [nl]) = some (.ok m) ∧
    ∃ tot, (m.scorer fb32 (textOf [[MphProbExample.w 0], [MphProbExample.w 0]])).scoreText id 0 0 (textOf [[MphProbExample.w 0], [MphProbExample.w 0]]) = some tot ∧
      |tot.total.1 + 4| ≤ 3 / 2 ^ 23 * 4 := by
  obtain ⟨m, qp, qb, e1, -, e3⟩ := C65_mph_totals_are_accurate 0 0 good32 fb32 sort32 (Binary32.ofRat (-1000)) (Binary32.ofRat (-100))
    (Binary32.ofRat (-100)) 5 lists32 input32
  refine ⟨m, e1, ?_⟩
  obtain ⟨tot, t1, t2⟩ := e3 _ rfl [[MphProbExample.w 0], [MphProbExample.w 0]] 0 1 0 (by
    intro l hl
    simp at hl; subst hl
    refine ⟨by simp, fun w hw => ?_⟩
    simp at hw; subst hw
    exact MphProbExample.w_word _ (by decide)) (by
    intro l _ k f hf g hg hl
    obtain ⟨f0, h0, rfl⟩ := keys? hf
    rw [List.map_map]
    exact MphProbExample.recognised l k f0 h0 g hg hl) (by
    intro l hl; simp at hl; subst hl; simp) (by
    intro l hl p hp
    simp at hl; subst hl
    rw [wordScores32] at hp
    simp at hp; subst hp
    exact neg2)
  refine ⟨tot, t1, ?_⟩
  have := t2.total (by simp)
  have he : Spec.exactSum ((([[MphProbExample.w 0], [MphProbExample.w 0]] : List (List (List Byte))).map
      (Spec.Arpa.ofData data (Spec.unkProb Spec.unkText (Binary32.ofRat (-100)) (data.getD 0 []) (Binary32.ofRat (-100))) qp qb).wordScores).map (·.map (·.1))) = -4 := by
    simp only [List.map_cons, List.map_nil, wordScores32, Spec.exactSum]
    simp [v2]
    norm_num
  rw [he] at this
  norm_num at this ⊢
  exact this

end AccuracyExample

end Tongrams
