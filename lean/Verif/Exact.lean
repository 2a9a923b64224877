import Verif.Accuracy

/-!
# The reported total and the exact total of the ARPA file (C67)

What `score` reports is computed with quantised values, rounded at every addition.  Here: how far it can be from the sum, computed exactly, of the
textbook scores with the values of the ARPA file.
-/

set_option linter.unusedSectionVars false

namespace Tongrams
open Fp

/-- Specification: the ARPA model with the same values as exact numbers. -/
def Spec.Arpa.exact {K : Type} (A : Spec.Arpa K Binary32) : Spec.Arpa K ℚ where
  order := A.order
  unk := A.unk.1
  entry g := (A.entry g).map fun p => (p.1.1, p.2.1)

/-- Specification: the exact sum of the textbook scores of all words of a text. -/
def Spec.Arpa.exactTotal {K : Type} (A : Spec.Arpa K ℚ) (text : List (List K)) : ℚ :=
  (text.map fun ws => (ws.mapIdx fun i w => A.scoreAt ws i w).sum).sum

/-- Specification: the values of the ARPA file are logarithms of probabilities: not positive. -/
def Spec.LogValues {K : Type} (data : List (List (List K × Binary32 × Binary32))) : Prop := ∀ f ∈ data, ∀ r ∈ f, r.2.1 ≤ 0

/-- Specification: quantisation moves no value by more than `δ`. -/
def Spec.QuantisedWithin {K : Type} (data : List (List (List K × Binary32 × Binary32))) (qp qb : Nat → Binary32 → Binary32) (δ : ℚ) : Prop :=
  ∀ (k : Nat) (f : List (List K × Binary32 × Binary32)), data[k + 1]? = some f → ∀ r ∈ f,
    |(qp (k + 2) r.2.1).1 - r.2.1.1| ≤ δ ∧ (k + 2 < data.length → |(qb (k + 2) r.2.2).1 - r.2.2.1| ≤ δ)

namespace Exact
open Accuracy
variable {K : Type}

theorem exact_backoff (A : Spec.Arpa K Binary32) (g : List K) : A.exact.backoff g = (A.backoff g).1 := by
  unfold Spec.Arpa.backoff Spec.Arpa.exact
  simp only
  cases A.entry g with
  | none => rfl
  | some p => rfl

/-- The values that scores of contexts shorter than the order use are not positive. -/
structure Nonpos (A : Spec.Arpa K Binary32) : Prop where
  unk : A.unk.1 ≤ 0
  probs : ∀ g p b, A.entry g = some (p, b) → p.1 ≤ 0
  backoffs : ∀ g, g.length < A.order → (A.backoff g).1 ≤ 0

theorem weaken {f e : ℚ} {n m : Nat} (h : n ≤ m) (he : e ≤ 0) (h1 : (1 + u) ^ n * e ≤ f) (h2 : f ≤ (1 - u) ^ n * e) :
    (1 + u) ^ m * e ≤ f ∧ f ≤ (1 - u) ^ m * e := by
  obtain ⟨d, rfl⟩ := Nat.exists_eq_add_of_le h
  rw [pow_add, pow_add]
  have a1 := pow_ge d
  have a2 := pow_le d
  have a3 := pow_ge n
  have a4 := pow_pos' n
  have b1 : (1 + u) ^ n * e ≤ 0 := mul_nonpos_of_nonneg_of_nonpos (by linarith) he
  have b2 : (1 - u) ^ n * e ≤ 0 := mul_nonpos_of_nonneg_of_nonpos a4 he
  constructor <;> nlinarith

theorem score_bounds {A : Spec.Arpa K Binary32} (hA : Nonpos A) (c : List K) (w : K) (hc : c.length < A.order) :
    A.exact.score c w ≤ 0 ∧ (1 + u) ^ c.length * A.exact.score c w ≤ (A.score c w).1 ∧ (A.score c w).1 ≤ (1 - u) ^ c.length * A.exact.score c w := by
  induction c with
  | nil =>
    have e : A.exact.score [] w = (A.score [] w).1 := by
      unfold Spec.Arpa.score Spec.Arpa.exact
      simp only
      cases A.entry [w] with
      | none => rfl
      | some p => rfl
    have h0 : (A.score [] w).1 ≤ 0 := by
      unfold Spec.Arpa.score
      cases h : A.entry [w] with
      | none => exact hA.unk
      | some p => exact hA.probs _ p.1 p.2 h
    rw [e]
    simp [h0]
  | cons x c ih =>
    have hl : c.length < A.order := by rw [List.length_cons] at hc; omega
    obtain ⟨i0, i1, i2⟩ := ih hl
    cases h : A.entry (x :: c ++ [w]) with
    | some p =>
      have e1 : A.score (x :: c) w = p.1 := by rw [Spec.Arpa.score, h]
      have e2 : A.exact.score (x :: c) w = p.1.1 := by
        rw [Spec.Arpa.score, show A.exact.entry (x :: c ++ [w]) = some (p.1.1, p.2.1) by unfold Spec.Arpa.exact; simp only [h]; rfl]
      have h0 := hA.probs _ p.1 p.2 h
      rw [e1, e2]
      exact ⟨h0, weaken (n := 0) (Nat.zero_le _) h0 (by simp) (by simp)⟩
    | none =>
      have e1 : A.score (x :: c) w = A.score c w + A.backoff (x :: c) := by rw [Spec.Arpa.score, h]
      have e2 : A.exact.score (x :: c) w = A.exact.score c w + (A.backoff (x :: c)).1 := by
        rw [Spec.Arpa.score, show A.exact.entry (x :: c ++ [w]) = none by unfold Spec.Arpa.exact; simp only [h]; rfl]
        show A.exact.score c w + A.exact.backoff (x :: c) = _
        rw [exact_backoff]
      have hb := hA.backoffs (x :: c) hc
      have hs : (A.score c w).1 ≤ 0 := by have := mul_nonneg_of_nonpos_of_nonpos i0 (neg_nonpos.2 (pow_pos' c.length)); nlinarith
      obtain ⟨b1, b2⟩ := add_bounds (a := A.score c w) (b := A.backoff (x :: c)) (by linarith)
      obtain ⟨w1, w2⟩ := weaken (f := (A.backoff (x :: c)).1) (n := 0) (Nat.zero_le c.length) hb (by simp) (by simp)
      rw [e1, e2, List.length_cons, pow_succ, pow_succ]
      have hu := u_pos
      have hu1 := u_lt
      refine ⟨by linarith, ?_, ?_⟩
      · refine le_trans ?_ b1
        nlinarith
      · refine le_trans b2 ?_
        nlinarith

end Exact

namespace Exact
open Accuracy
variable {K : Type}

theorem sum_map_nonpos {α : Type} (l : List α) (f : α → ℚ) (h : ∀ x ∈ l, f x ≤ 0) : (l.map f).sum ≤ 0 := by
  induction l with
  | nil => simp
  | cons x l ih =>
    rw [List.map_cons, List.sum_cons]
    have := h x List.mem_cons_self
    have := ih fun y hy => h y (List.mem_cons_of_mem _ hy)
    linarith

theorem lastN_length {n : Nat} (l : List K) : (Spec.Arpa.lastN n l).length ≤ n := by
  unfold Spec.Arpa.lastN
  rw [List.length_drop]; omega

theorem map_mapIdx' {α β γ : Type} (l : List α) (f : Nat → α → β) (g : β → γ) : (l.mapIdx f).map g = l.mapIdx fun i x => g (f i x) := by
  rw [List.mapIdx_eq_zipIdx_map, List.mapIdx_eq_zipIdx_map, List.map_map]; rfl

/-- One sentence. -/
theorem sentence {A : Spec.Arpa K Binary32} (hA : Nonpos A) (h1 : 1 ≤ A.order) (ws : List K) :
    (ws.mapIdx fun i w => A.exact.scoreAt ws i w).sum ≤ 0 ∧
    (1 + u) ^ (A.order - 1 + ws.length) * (ws.mapIdx fun i w => A.exact.scoreAt ws i w).sum ≤ ((ws.mapIdx fun i w => A.scoreAt ws i w).foldl (· + ·) (0 : Binary32)).1 ∧
    ((ws.mapIdx fun i w => A.scoreAt ws i w).foldl (· + ·) (0 : Binary32)).1 ≤ (1 - u) ^ (A.order - 1 + ws.length) * (ws.mapIdx fun i w => A.exact.scoreAt ws i w).sum := by
  have key : ∀ p ∈ ws.mapIdx (fun i w => (A.scoreAt ws i w, A.exact.scoreAt ws i w)),
      p.2 ≤ 0 ∧ (1 + u) ^ (A.order - 1) * p.2 ≤ p.1.1 ∧ p.1.1 ≤ (1 - u) ^ (A.order - 1) * p.2 := by
    intro p hp
    obtain ⟨i, hi, rfl⟩ := List.mem_mapIdx.1 hp
    have hl := lastN_length (n := A.order - 1) (ws.take i)
    obtain ⟨a, b, c⟩ := score_bounds hA (Spec.Arpa.lastN (A.order - 1) (ws.take i)) ws[i] (by omega)
    exact ⟨a, weaken hl a b c⟩
  have := Accuracy.sum_bounds (A.order - 1) _ key 0 (0 : Binary32) 0 (le_refl _) (by show _ ≤ (0 : ℚ); simp) (by show (0 : ℚ) ≤ _; simp)
  rw [map_mapIdx', map_mapIdx', List.length_mapIdx] at this
  simp only [zero_add] at this
  refine ⟨?_, this⟩
  have h0 := sum_map_nonpos (ws.mapIdx (fun i w => (A.scoreAt ws i w, A.exact.scoreAt ws i w))) (fun p => p.2) fun p hp => (key p hp).1
  rw [map_mapIdx'] at h0
  exact h0

/-- A text. -/
theorem total {A : Spec.Arpa K Binary32} (hA : Nonpos A) (h1 : 1 ≤ A.order) (text : List (List K)) (L : Nat) (hL : ∀ l ∈ text, l.length ≤ L)
    (hn : A.order + L + text.length ≤ 2 ^ 23) :
    |((text.map fun ws => (ws.mapIdx fun i w => A.scoreAt ws i w).foldl (· + ·) (0 : Binary32)).foldl (· + ·) (0 : Binary32)).1 - A.exact.exactTotal text| ≤
      ((A.order + L + text.length : Nat) : ℚ) / 2 ^ 23 * |A.exact.exactTotal text| := by
  have := Accuracy.sum_bounds (A.order + L) (text.map fun ws => ((ws.mapIdx fun i w => A.scoreAt ws i w).foldl (· + ·) (0 : Binary32), (ws.mapIdx fun i w => A.exact.scoreAt ws i w).sum)) (by
    intro p hp
    obtain ⟨ws, hw, rfl⟩ := List.mem_map.1 hp
    obtain ⟨a, b, c⟩ := sentence hA h1 ws
    have := hL ws hw
    exact ⟨a, weaken (by omega) a b c⟩) 0 (0 : Binary32) 0 (le_refl _) (by show _ ≤ (0 : ℚ); simp) (by show (0 : ℚ) ≤ _; simp)
  rw [List.map_map, List.map_map, List.length_map] at this
  simp only [zero_add] at this
  change (1 + u) ^ _ * A.exact.exactTotal text ≤ (((text.map fun ws => (ws.mapIdx fun i w => A.scoreAt ws i w).foldl (· + ·) (0 : Binary32)).foldl (· + ·) (0 : Binary32)).1) ∧
    (((text.map fun ws => (ws.mapIdx fun i w => A.scoreAt ws i w).foldl (· + ·) (0 : Binary32)).foldl (· + ·) (0 : Binary32)).1) ≤ (1 - u) ^ _ * A.exact.exactTotal text at this
  obtain ⟨g1, g2⟩ := this
  obtain ⟨p1, p2⟩ := pow_bounds _ hn
  have h0 : A.exact.exactTotal text ≤ 0 := sum_map_nonpos _ _ fun ws _ => (sentence hA h1 ws).1
  have e2 : (2 : ℚ) ^ (-23 : ℤ) = 1 / 2 ^ 23 := by norm_num
  rw [e2] at p1 p2
  have e3 : ∀ n : ℚ, n * (1 / 2 ^ 23) = n / 2 ^ 23 := by intro n; ring
  rw [e3] at p1 p2
  rw [abs_of_nonpos h0, abs_le]
  constructor <;> nlinarith

/-- The exact scores of two models with the same n-grams whose values differ by at most `δ`. -/
theorem score_close {A B : Spec.Arpa K ℚ} {δ : ℚ} (hδ : 0 ≤ δ) (hu : |A.unk - B.unk| ≤ δ)
    (hs : ∀ g, (A.entry g = none ∧ B.entry g = none) ∨ ∃ p b p' b', A.entry g = some (p, b) ∧ B.entry g = some (p', b') ∧ |p - p'| ≤ δ)
    (hb : ∀ g, g.length < A.order → |A.backoff g - B.backoff g| ≤ δ) (c : List K) (w : K) (hc : c.length < A.order) :
    |A.score c w - B.score c w| ≤ (c.length + 1 : Nat) * δ := by
  induction c with
  | nil =>
    unfold Spec.Arpa.score
    rcases hs [w] with ⟨h1, h2⟩ | ⟨p, b, p', b', h1, h2, h3⟩
    · rw [h1, h2]; simpa using hu
    · rw [h1, h2]; simpa using h3
  | cons x c ih =>
    have hl : c.length < A.order := by rw [List.length_cons] at hc; omega
    have := ih hl
    rw [Spec.Arpa.score, Spec.Arpa.score]
    rcases hs (x :: c ++ [w]) with ⟨h1, h2⟩ | ⟨p, b, p', b', h1, h2, h3⟩
    · rw [h1, h2]
      show |(A.score c w + A.backoff (x :: c)) - (B.score c w + B.backoff (x :: c))| ≤ _
      have h4 := hb (x :: c) hc
      rw [List.length_cons]
      push_cast at this ⊢
      rw [abs_le] at *
      constructor <;> linarith [this.1, this.2, h4.1, h4.2]
    · rw [h1, h2]
      refine le_trans h3 ?_
      push_cast
      have : (0 : ℚ) ≤ (c.length + 1 : ℚ) * δ := by positivity
      rw [List.length_cons]; push_cast
      linarith

theorem sum_close {α : Type} (l : List α) (f g : α → ℚ) (e : α → ℚ) (h : ∀ x ∈ l, |f x - g x| ≤ e x) : |(l.map f).sum - (l.map g).sum| ≤ (l.map e).sum := by
  induction l with
  | nil => simp
  | cons x l ih =>
    rw [List.map_cons, List.map_cons, List.map_cons, List.sum_cons, List.sum_cons, List.sum_cons]
    have h1 := h x List.mem_cons_self
    have h2 := ih fun y hy => h y (List.mem_cons_of_mem _ hy)
    rw [abs_le] at *
    constructor <;> linarith [h1.1, h1.2, h2.1, h2.2]

theorem total_close {A B : Spec.Arpa K ℚ} {δ : ℚ} (hδ : 0 ≤ δ) (ho : A.order = B.order) (h1 : 1 ≤ A.order) (hu : |A.unk - B.unk| ≤ δ)
    (hs : ∀ g, (A.entry g = none ∧ B.entry g = none) ∨ ∃ p b p' b', A.entry g = some (p, b) ∧ B.entry g = some (p', b') ∧ |p - p'| ≤ δ)
    (hb : ∀ g, g.length < A.order → |A.backoff g - B.backoff g| ≤ δ) (text : List (List K)) :
    |A.exactTotal text - B.exactTotal text| ≤ A.order * δ * (text.map List.length).sum := by
  have hword : ∀ (ws : List K) i w, |A.scoreAt ws i w - B.scoreAt ws i w| ≤ A.order * δ := by
    intro ws i w
    unfold Spec.Arpa.scoreAt
    rw [← ho]
    have hl := lastN_length (n := A.order - 1) (ws.take i)
    refine le_trans (score_close hδ hu hs hb _ w (by omega)) ?_
    refine mul_le_mul_of_nonneg_right ?_ hδ
    exact_mod_cast (by omega : (Spec.Arpa.lastN (A.order - 1) (ws.take i)).length + 1 ≤ A.order)
  have hsent : ∀ ws ∈ text, |(ws.mapIdx fun i w => A.scoreAt ws i w).sum - (ws.mapIdx fun i w => B.scoreAt ws i w).sum| ≤ A.order * δ * ws.length := by
    intro ws _
    rw [List.mapIdx_eq_zipIdx_map, List.mapIdx_eq_zipIdx_map]
    refine le_trans (sum_close _ _ _ (fun _ => A.order * δ) fun p _ => hword ws _ _) ?_
    simp [mul_comm]
  refine le_trans (sum_close text _ _ (fun ws => A.order * δ * ws.length) hsent) (le_of_eq ?_)
  clear hsent
  induction text with
  | nil => simp
  | cons ws text ih =>
    rw [List.map_cons, List.sum_cons, ih, List.map_cons, List.sum_cons]
    push_cast
    ring

end Exact

namespace Exact
variable {K : Type} [DecidableEq K]

theorem unk_nonpos {data : List (List (List K × Binary32 × Binary32))} (hl : Spec.LogValues data) (w : K) {default unk : Binary32} (hd : default ≤ 0) (hu : unk ≤ 0) :
    Spec.unkProb w default (data.getD 0 []) unk ≤ 0 := by
  unfold Spec.unkProb
  split
  · cases hf : (data.getD 0 []).find? (fun r => decide (r.1 = [w])) with
    | none => exact hd
    | some r =>
      have hm := List.mem_of_find?_eq_some hf
      cases h0 : data[0]? with
      | none => rw [List.getD_eq_getElem?_getD, h0] at hm; simp at hm
      | some f => rw [List.getD_eq_getElem?_getD, h0] at hm; exact hl f (List.mem_of_getElem? h0) r hm
  · exact hu

/-- The values of a quantised model are not positive. -/
theorem nonpos {data : List (List (List K × Binary32 × Binary32))} (h : Spec.ArpaFiles data) (hm : Spec.ContextsMatter data) (hl : Spec.LogValues data)
    {pb bb : Nat} {qp qb : Nat → Binary32 → Binary32} (hq : Spec.Quantised data pb bb qp qb) {unk : Binary32} (hu : unk ≤ 0) :
    Nonpos (Spec.Arpa.ofData data unk qp qb) where
  unk := hu
  probs := by
    intro g p b he
    obtain ⟨f, r, hf, hr, hrg, hne⟩ := ArpaData.entry_some data unk qp qb (by rw [he]; rfl)
    obtain ⟨i, hi, rfl⟩ := List.mem_iff_getElem.1 hr
    have hent := ArpaData.entry_eq data unk qp qb h hf (List.getElem?_eq_getElem hi)
    have hpos := List.length_pos_iff.2 hne
    rw [hrg, he] at hent
    have hent := Option.some.inj hent
    split at hent
    · have e : p = f[i].2.1 := congrArg Prod.fst hent
      rw [e]; exact hl f (List.mem_of_getElem? hf) _ hr
    · have e : p = qp g.length f[i].2.1 := congrArg Prod.fst hent
      have hf2 : data[(g.length - 2) + 1]? = some f := by rw [← hf]; congr 1; omega
      obtain ⟨code, -, h1, h2⟩ := hq.probs (g.length - 2) f hf2
      have h3 := (h2 _ hr).1
      rw [show g.length - 2 + 2 = g.length by omega, ← e] at h3
      obtain ⟨-, r2, hr2, h4⟩ := h1 p h3
      exact le_trans h4 (hl f (List.mem_of_getElem? hf) r2 hr2)
  backoffs := by
    intro g hg
    change g.length < data.length at hg
    rw [Spec.Arpa.backoff]
    cases he : (Spec.Arpa.ofData data unk qp qb).entry g with
    | none => exact le_refl _
    | some pb =>
      obtain ⟨f, r, hf, hr, hrg, hne⟩ := ArpaData.entry_some data unk qp qb (by rw [he]; rfl)
      obtain ⟨i, hi, rfl⟩ := List.mem_iff_getElem.1 hr
      have hent := ArpaData.entry_eq data unk qp qb h hf (List.getElem?_eq_getElem hi)
      have hpos := List.length_pos_iff.2 hne
      rw [hrg, he] at hent
      have hent := Option.some.inj hent
      have hfd : f ∈ data.dropLast := by
        refine List.mem_of_getElem? (i := g.length - 1) ?_
        rw [List.getElem?_dropLast, if_pos (by omega)]; exact hf
      show pb.2.1 ≤ 0
      split at hent
      · rw [hent]; exact hm.nonpos f hfd _ hr
      · rw [hent]
        show (qb g.length f[i].2.2).1 ≤ 0
        have hf2 : data[(g.length - 2) + 1]? = some f := by rw [← hf]; congr 1; omega
        obtain ⟨h0, h2⟩ := hq.backoffs (g.length - 2) f hf2 (by omega)
        rw [show g.length - 2 + 2 = g.length by omega] at h0 h2
        by_cases hz : f[i].2.2 = 0
        · rw [h0 _ hr hz]; exact le_refl _
        · obtain ⟨code, -, h3, h4⟩ := h2 ⟨f[i], hr, hz⟩
          obtain ⟨-, r2, hr2, -, hr4⟩ := h3 _ (h4 f[i] hr hz).1
          exact le_trans hr4 (hm.nonpos f hfd r2 hr2)

/-- Quantisation leaves the n-grams and moves the values by at most `δ`. -/
theorem quantised_close {data : List (List (List K × Binary32 × Binary32))} (h : Spec.ArpaFiles data) {qp qb : Nat → Binary32 → Binary32} {δ : ℚ} (hδ : 0 ≤ δ)
    (hq : Spec.QuantisedWithin data qp qb δ) (unk : Binary32) {A B : Spec.Arpa K ℚ} (hA : A = (Spec.Arpa.ofData data unk qp qb).exact)
    (hB : B = (Spec.Arpa.ofData data unk (fun _ v => v) (fun _ v => v)).exact) :
    |A.unk - B.unk| ≤ δ ∧
    (∀ g, (A.entry g = none ∧ B.entry g = none) ∨ ∃ p b p' b', A.entry g = some (p, b) ∧ B.entry g = some (p', b') ∧ |p - p'| ≤ δ) ∧
    ∀ g, g.length < A.order → |A.backoff g - B.backoff g| ≤ δ := by
  subst hA hB
  have key : ∀ g, ((Spec.Arpa.ofData data unk qp qb).entry g = none ∧ (Spec.Arpa.ofData data unk (fun _ v => v) (fun _ v => v)).entry g = none) ∨
      ∃ p b p' b', (Spec.Arpa.ofData data unk qp qb).entry g = some (p, b) ∧ (Spec.Arpa.ofData data unk (fun _ v => v) (fun _ v => v)).entry g = some (p', b') ∧
        |p.1 - p'.1| ≤ δ ∧ (g.length < data.length → |b.1 - b'.1| ≤ δ) := by
    intro g
    cases he : (Spec.Arpa.ofData data unk qp qb).entry g with
    | none =>
      refine .inl ⟨rfl, ?_⟩
      cases he' : (Spec.Arpa.ofData data unk (fun _ v => v) (fun _ v => v)).entry g with
      | none => rfl
      | some pb =>
        obtain ⟨f, r, hf, hr, hrg, hne⟩ := ArpaData.entry_some data unk (fun _ v => v) (fun _ v => v) (by rw [he']; rfl)
        obtain ⟨i, hi, rfl⟩ := List.mem_iff_getElem.1 hr
        have hent := ArpaData.entry_eq data unk qp qb h hf (List.getElem?_eq_getElem hi)
        rw [hrg, he] at hent
        cases hent
    | some pb =>
      refine .inr ?_
      obtain ⟨f, r, hf, hr, hrg, hne⟩ := ArpaData.entry_some data unk qp qb (by rw [he]; rfl)
      obtain ⟨i, hi, rfl⟩ := List.mem_iff_getElem.1 hr
      have hent := ArpaData.entry_eq data unk qp qb h hf (List.getElem?_eq_getElem hi)
      have hent' := ArpaData.entry_eq data unk (fun _ v => v) (fun _ v => v) h hf (List.getElem?_eq_getElem hi)
      have hpos := List.length_pos_iff.2 hne
      rw [hrg] at hent'
      rw [hrg, he] at hent
      have hent := Option.some.inj hent
      rw [hent]
      split at hent
      · rename_i h1
        rw [if_pos h1] at hent'
        rw [if_pos h1]
        exact ⟨_, _, _, _, rfl, hent', by rw [sub_self, abs_zero]; exact hδ, fun _ => by rw [sub_self, abs_zero]; exact hδ⟩
      · rename_i h1
        rw [if_neg h1] at hent'
        rw [if_neg h1]
        have hf2 : data[(g.length - 2) + 1]? = some f := by rw [← hf]; congr 1; omega
        obtain ⟨q1, q2⟩ := hq (g.length - 2) f hf2 _ hr
        rw [show g.length - 2 + 2 = g.length by omega] at q1 q2
        exact ⟨_, _, _, _, rfl, hent', q1, q2⟩
  refine ⟨?_, ?_, ?_⟩
  · show |unk.1 - unk.1| ≤ δ
    rw [sub_self, abs_zero]; exact hδ
  · intro g
    rcases key g with ⟨h1, h2⟩ | ⟨p, b, p', b', h1, h2, h3, -⟩
    · refine .inl ⟨?_, ?_⟩
      · show Option.map _ ((Spec.Arpa.ofData data unk qp qb).entry g) = none
        rw [h1]; rfl
      · show Option.map _ ((Spec.Arpa.ofData data unk (fun _ v => v) (fun _ v => v)).entry g) = none
        rw [h2]; rfl
    · refine .inr ⟨p.1, b.1, p'.1, b'.1, ?_, ?_, h3⟩
      · show Option.map _ ((Spec.Arpa.ofData data unk qp qb).entry g) = _
        rw [h1]; rfl
      · show Option.map _ ((Spec.Arpa.ofData data unk (fun _ v => v) (fun _ v => v)).entry g) = _
        rw [h2]; rfl
  · intro g hg
    change g.length < data.length at hg
    rw [exact_backoff, exact_backoff, Spec.Arpa.backoff, Spec.Arpa.backoff]
    rcases key g with ⟨h1, h2⟩ | ⟨p, b, p', b', h1, h2, -, h3⟩
    · rw [h1, h2]
      show |(0 : ℚ) - 0| ≤ δ
      rw [sub_self, abs_zero]; exact hδ
    · rw [h1, h2]; exact h3 hg

/-- Quantisation moves the total by at most `δ` for each word and each order. -/
theorem quantised_total {data : List (List (List K × Binary32 × Binary32))} (h : Spec.ArpaFiles data) {qp qb : Nat → Binary32 → Binary32} {δ : ℚ} (hδ : 0 ≤ δ)
    (hq : Spec.QuantisedWithin data qp qb δ) (unk : Binary32) (text : List (List K)) :
    |(Spec.Arpa.ofData data unk qp qb).exact.exactTotal text - (Spec.Arpa.ofData data unk (fun _ v => v) (fun _ v => v)).exact.exactTotal text| ≤
      data.length * δ * (text.map List.length).sum := by
  have ho := h.order_min
  obtain ⟨h1, h2, h3⟩ := quantised_close h hδ hq unk rfl rfl
  exact total_close (A := (Spec.Arpa.ofData data unk qp qb).exact) (B := (Spec.Arpa.ofData data unk (fun _ v => v) (fun _ v => v)).exact) hδ rfl
    (by show 1 ≤ data.length; omega) h1 h2 h3 text

/-- The two together. -/
theorem reported {data : List (List (List K × Binary32 × Binary32))} (h : Spec.ArpaFiles data) (hm : Spec.ContextsMatter data) (hl : Spec.LogValues data)
    {pb bb : Nat} {qp qb : Nat → Binary32 → Binary32} (hq : Spec.Quantised data pb bb qp qb) {unk : Binary32} (hu : unk ≤ 0) {δ : ℚ} (hδ : 0 ≤ δ)
    (hw : Spec.QuantisedWithin data qp qb δ) (text : List (List K)) (L : Nat) (hL : ∀ l ∈ text, l.length ≤ L)
    (hn : data.length + L + text.length ≤ 2 ^ 23) (T ε : ℚ) (hT : T = (Spec.Arpa.ofData data unk (fun _ v => v) (fun _ v => v)).exact.exactTotal text)
    (hε : ε = ((data.length + L + text.length : Nat) : ℚ) / 2 ^ 23) :
    |((Spec.Arpa.ofData data unk qp qb).corpus text).total.1 - T| ≤ ε * |T| + (1 + ε) * (data.length * δ * (text.map List.length).sum) := by
  have ho := h.order_min
  have h1 := total (nonpos h hm hl hq hu) (by show 1 ≤ data.length; omega) text L hL hn
  have h2 := quantised_total h hδ hw unk text
  rw [← hT] at h2
  rw [Accuracy.corpus_total]
  have e : ((text.map (Spec.Arpa.ofData data unk qp qb).wordScores).map (·.map (·.1))).map (fun l => l.foldl (· + ·) (0 : Binary32)) =
      text.map fun ws => (ws.mapIdx fun i w => (Spec.Arpa.ofData data unk qp qb).scoreAt ws i w).foldl (· + ·) (0 : Binary32) := by
    rw [List.map_map, List.map_map]
    apply List.map_congr_left
    intro ws _
    simp only [Function.comp_apply]
    rw [Scorer.wordScores_textbook (ArpaData.wellFormed data _ _ _ h) (ArpaData.nonZeroContexts h hm hq unk), map_mapIdx']
  rw [e]
  change _ ≤ ((data.length + L + text.length : Nat) : ℚ) / 2 ^ 23 * _ at h1
  rw [← hε] at h1
  have hε0 : 0 ≤ ε := by rw [hε]; positivity
  generalize (Spec.Arpa.ofData data unk qp qb).exact.exactTotal text = X at h1 h2
  generalize ((text.map fun ws => (ws.mapIdx fun i w => (Spec.Arpa.ofData data unk qp qb).scoreAt ws i w).foldl (· + ·) (0 : Binary32)).foldl (· + ·) (0 : Binary32)).1 = Y at h1
  generalize (data.length : ℚ) * δ * ((text.map List.length).sum : Nat) = D at h2
  have h3 : |X| ≤ |T| + D := by
    have := abs_sub_abs_le_abs_sub X T
    linarith
  calc |Y - T| = |(Y - X) + (X - T)| := by ring_nf
    _ ≤ |Y - X| + |X - T| := abs_add_le _ _
    _ ≤ ε * |X| + D := by linarith
    _ ≤ ε * (|T| + D) + D := by have := mul_le_mul_of_nonneg_left h3 hε0; linarith
    _ = ε * |T| + (1 + ε) * D := by ring

end Exact

/-- Specification: values of one order lie at most `δ` apart (of the backoffs: those that are not 0). -/
def Spec.Spread {K : Type} (data : List (List (List K × Binary32 × Binary32))) (δ : ℚ) : Prop :=
  ∀ f ∈ data.tail, ∀ r ∈ f, ∀ s ∈ f, |r.2.1.1 - s.2.1.1| ≤ δ ∧ (r.2.2 ≠ 0 → s.2.2 ≠ 0 → |r.2.2.1 - s.2.2.1| ≤ δ)

/-- Whatever the codes are: quantisation moves no value by more than the spread of the values of its order. -/
theorem Exact.within_spread {K : Type} {data : List (List (List K × Binary32 × Binary32))} {pb bb : Nat} {qp qb : Nat → Binary32 → Binary32}
    (hq : Spec.Quantised data pb bb qp qb) {δ : ℚ} (hδ : 0 ≤ δ) (hs : Spec.Spread data δ) : Spec.QuantisedWithin data qp qb δ := by
  intro k f hf r hr
  have hft : f ∈ data.tail := by
    refine List.mem_of_getElem? (i := k) ?_
    rw [List.getElem?_tail]; exact hf
  constructor
  · obtain ⟨code, -, h1, h2⟩ := hq.probs k f hf
    obtain ⟨⟨a, ha, ha'⟩, b, hb, hb'⟩ := h1 _ (h2 r hr).1
    have h3 := abs_le.1 (hs f hft a ha r hr).1
    have h4 := abs_le.1 (hs f hft b hb r hr).1
    have ha'' : a.2.1.1 ≤ (qp (k + 2) r.2.1).1 := ha'
    have hb'' : (qp (k + 2) r.2.1).1 ≤ b.2.1.1 := hb'
    exact abs_le.2 ⟨by linarith [h3.1], by linarith [h4.2]⟩
  · intro hk
    obtain ⟨h0, h1⟩ := hq.backoffs k f hf hk
    by_cases hz : r.2.2 = 0
    · rw [h0 r hr hz, hz, sub_self, abs_zero]; exact hδ
    · obtain ⟨code, -, h1, h2⟩ := h1 ⟨r, hr, hz⟩
      obtain ⟨⟨a, ha, ha0, ha'⟩, b, hb, hb0, hb'⟩ := h1 _ (h2 r hr hz).1
      have h3 := abs_le.1 ((hs f hft a ha r hr).2 ha0 hz)
      have h4 := abs_le.1 ((hs f hft b hb r hr).2 hb0 hz)
      have ha'' : a.2.2.1 ≤ (qb (k + 2) r.2.2).1 := ha'
      have hb'' : (qb (k + 2) r.2.2).1 ≤ b.2.2.1 := hb'
      exact abs_le.2 ⟨by linarith [h3.1], by linarith [h4.2]⟩

/-- **C67** (trie).  Let the values of an ARPA file be log-probabilities (not positive, contexts of listed n-grams with a backoff that is not 0), let the quantisation move
no value by more than `δ`, and let `T` be the exact sum of the textbook scores of all words of a text, over the values of the file.  The total that `score` reports, in
`float` arithmetic, differs from `T` by at most `ε |T| + (1 + ε) order δ (words)`, for `ε = (order + L + S) / 2^23`, S sentences of up to L words. -/
theorem C67_trie_total_of_the_file {strtod : List Byte → Binary32 × Nat} (lead gap : Nat) {sections : List (List (Spec.ArpaLine Binary32) × Nat)}
    {tail : List Byte} (hg : Spec.GoodArpa strtod sections tail) (fb : FloatBits Binary32) {sort : List Binary32 → List Binary32}
    (hsort : ∀ l, (sort l).Perm l ∧ (sort l).Pairwise (· ≤ ·))
    (negInf default unk : Binary32) {U : List (List Byte)} {data : List (List (List (List Byte) × Binary32 × Binary32))} {ro pb bb : Nat}
    (hd : Spec.ArpaLists sections data) (hwords : ∀ f ∈ data, ∀ r ∈ f, ∀ w ∈ r.1, w ≠ [] ∧ sp ∉ w)
    (h : Spec.ProbFiles U data ro) (hq : Spec.Quantisable data pb bb) (hbits : pb + bb ≤ 58)
    (hfb : ∀ f0, data[0]? = some f0 → ∀ r ∈ f0, fb.dec (fb.enc r.2.1) = r.2.1 ∧ fb.dec (fb.enc r.2.2) = r.2.2)
    {hv : Mphf (List Byte) 64} (hb : hv.BuiltFrom U) {hr : Nat → Mphf Nat 64} (hh : Spec.RangeHashes hr (TrieProb.asCounts data))
    {junk : Nat → List W} (hj : ∀ k, junk k ≠ [])
    (hm : Spec.ContextsMatter data) (hl : Spec.LogValues data) (hdef : default ≤ 0) (hunk : unk ≤ 0) :
    ∃ t qp qb, TrieProb.buildArpa strtod fb sort negInf default hv (GramsImpl.fastEF hr) (RanksImpl.cv junk) ro unk pb bb sections.length
        (Spec.arpaText lead gap sections tail) = some (.ok t) ∧
      Spec.Quantised data pb bb qp qb ∧
      ∀ δ, 0 ≤ δ → Spec.QuantisedWithin data qp qb δ →
      ∀ (text : List (List (List Byte))) (d L : Nat) (one : Binary32), (∀ l ∈ text, l ≠ [] ∧ ∀ w ∈ l, Spec.IsWord w ∧ Spec.Recognised hv U w) →
        (∀ l ∈ text, l.length ≤ L) → data.length + L + text.length ≤ 2 ^ 23 →
      ∀ T ε, T = (Spec.Arpa.ofData data (Spec.unkProb Spec.unkText default (data.getD 0 []) unk) (fun _ v => v) (fun _ v => v)).exact.exactTotal text →
        ε = ((data.length + L + text.length : Nat) : ℚ) / 2 ^ 23 →
        ∃ tot, (t.scorer fb).scoreText (slice (textOf text)) d one (textOf text) = some tot ∧
          |tot.total.1 - T| ≤ ε * |T| + (1 + ε) * (data.length * δ * (text.map List.length).sum) := by
  obtain ⟨t, qp, qb, e1, e2, e3⟩ := C46_score_tool_trie lead gap hg fb hsort negInf default unk hd hwords h hq hbits hfb hb hh hj
  refine ⟨t, qp, qb, e1, e2, ?_⟩
  intro δ hδ hw text d L one ht hL hn T ε hT hε
  exact ⟨_, e3 text d one ht, Exact.reported h.arpa hm hl e2 (Exact.unk_nonpos hl _ hdef hunk) hδ hw text L hL hn T ε hT hε⟩

/-- **C67** (hash model). -/
theorem C67_mph_total_of_the_file {B : Nat} {strtod : List Byte → Binary32 × Nat} (lead gap : Nat) {sections : List (List (Spec.ArpaLine Binary32) × Nat)}
    {tail : List Byte} (hg : Spec.GoodArpa strtod sections tail) (fb : FloatBits Binary32) {sort : List Binary32 → List Binary32}
    (hsort : ∀ l, (sort l).Perm l ∧ (sort l).Pairwise (· ≤ ·)) (negInf default unk : Binary32) {mem pb bb : Nat} (extra : Nat)
    {hs : Nat → Mphf (List Byte) B} {data : List (List (List (List Byte) × Binary32 × Binary32))}
    (hd : Spec.ArpaLists sections data) (h : Spec.MphProbInput fb mem pb bb hs data)
    (hm : Spec.ContextsMatter data) (hl : Spec.LogValues data) (hdef : default ≤ 0) (hunk : unk ≤ 0) :
    ∃ m qp qb, MphProb.buildArpa strtod fb sort negInf default unk mem extra hs pb bb sections.length (Spec.arpaText lead gap sections tail) = some (.ok m) ∧
      Spec.Quantised data pb bb qp qb ∧
      ∀ δ, 0 ≤ δ → Spec.QuantisedWithin data qp qb δ →
      ∀ (text : List (List (List Byte))) (d L : Nat) (one : Binary32), (∀ l ∈ text, l ≠ [] ∧ ∀ w ∈ l, Spec.IsWord w) →
        (∀ l ∈ text, Spec.GramsRecognised hs data l) → (∀ l ∈ text, l.length ≤ L) → data.length + L + text.length ≤ 2 ^ 23 →
      ∀ T ε, T = (Spec.Arpa.ofData data (Spec.unkProb Spec.unkText default (data.getD 0 []) unk) (fun _ v => v) (fun _ v => v)).exact.exactTotal text →
        ε = ((data.length + L + text.length : Nat) : ℚ) / 2 ^ 23 →
        ∃ tot, (m.scorer fb (textOf text)).scoreText id d one (textOf text) = some tot ∧
          |tot.total.1 - T| ≤ ε * |T| + (1 + ε) * (data.length * δ * (text.map List.length).sum) := by
  obtain ⟨m, qp, qb, e1, e2, e3⟩ := C46_score_tool_mph lead gap hg fb hsort negInf default unk extra hd h
  refine ⟨m, qp, qb, e1, e2, ?_⟩
  intro δ hδ hw text d L one ht hr hL hn T ε hT hε
  exact ⟨_, e3 text d one ht hr, Exact.reported h.arpa hm hl e2 (Exact.unk_nonpos hl _ hdef hunk) hδ hw text L hL hn T ε hT hε⟩

/-- **C67**: whatever the codes, `δ` can be taken as the spread of the values of one order. -/
theorem C67_quantisation_within_spread {K : Type} {data : List (List (List K × Binary32 × Binary32))} {pb bb : Nat} {qp qb : Nat → Binary32 → Binary32}
    (hq : Spec.Quantised data pb bb qp qb) {δ : ℚ} (hδ : 0 ≤ δ) (hs : Spec.Spread data δ) : Spec.QuantisedWithin data qp qb δ :=
  Exact.within_spread hq hδ hs

namespace ExactExample
open AccuracyExample

theorem vh : (Binary32.ofRat (-1/2)).1 = -1/2 := conv_neg (m := 1) (k := -1) (by norm_num) (by norm_num) (by norm_num) (by norm_num)

theorem le0 {q : ℚ} (h : q ≤ 0) : Binary32.ofRat q ≤ 0 := not_lt.1 (conv_nonpos h)

theorem logs : Spec.LogValues data := by
  intro f hf r hr
  obtain ⟨f0, h0, rfl⟩ := keys hf
  obtain ⟨r0, g0, rfl⟩ := List.mem_map.1 hr
  have : ∀ f ∈ MphProbExample.data, ∀ r ∈ f, r.2.1 ≤ 0 := by decide +kernel
  exact le0 (this f0 h0 r0 g0)

theorem ne1 : Binary32.ofRat (-1) ≠ 0 := by
  intro h
  have := congrArg Subtype.val h
  rw [v1] at this
  exact absurd this (by show ¬ (-1 : ℚ) = 0; norm_num)

theorem contexts : Spec.ContextsMatter data where
  nonpos := by
    intro f hf r hr
    obtain ⟨f0, h0, rfl⟩ := keys (List.mem_of_mem_dropLast hf)
    obtain ⟨r0, g0, rfl⟩ := List.mem_map.1 hr
    have : ∀ f ∈ MphProbExample.data, ∀ r ∈ f, r.2.2 ≤ 0 := by decide +kernel
    exact le0 (this f0 h0 r0 g0)
  nonzero := by
    intro k f f' hf hf' r hr _
    obtain ⟨f0, h0, rfl⟩ := keys? hf
    obtain ⟨r0, g0, rfl⟩ := List.mem_map.1 hr
    have hk : k + 1 < data.length := (List.getElem?_eq_some_iff.1 hf').1
    change k + 1 < 3 at hk
    have : ∀ f ∈ MphProbExample.data.dropLast, ∀ r ∈ f, r.2.2 = -1 ∨ r.2.2 = -1/8 := by decide +kernel
    have hm : f0 ∈ MphProbExample.data.dropLast := by
      refine List.mem_of_getElem? (i := k) ?_
      rw [List.getElem?_dropLast, if_pos (by show k < 3 - 1; omega)]; exact h0
    show Binary32.ofRat r0.2.2 ≠ 0
    rcases this f0 hm r0 g0 with e | e <;> rw [e]
    · exact ne1
    · exact ne8

theorem spread : Spec.Spread data 0 := by
  intro f hf r hr s hs
  have hf' : ∃ f0 ∈ MphProbExample.data.tail, f = f0.map fun r => (r.1, conv r.2) := by
    unfold data at hf
    rw [← List.map_tail] at hf
    obtain ⟨f0, h0, rfl⟩ := List.mem_map.1 hf
    exact ⟨f0, h0, rfl⟩
  obtain ⟨f0, h0, rfl⟩ := hf'
  obtain ⟨r0, g0, rfl⟩ := List.mem_map.1 hr
  obtain ⟨s0, k0, rfl⟩ := List.mem_map.1 hs
  have : ∀ f ∈ MphProbExample.data.tail, ∀ r ∈ f, ∀ s ∈ f, r.2.1 = s.2.1 ∧ r.2.2 = s.2.2 := by decide +kernel
  obtain ⟨h1, h2⟩ := this f0 h0 r0 g0 s0 k0
  simp [conv, h1, h2]

/-- The exact total of `n` lines "a b": `n (-2 - 1/2)`. -/
theorem exact32 (u : Binary32) (n : Nat) :
    (Spec.Arpa.ofData data u (fun _ v => v) (fun _ v => v)).exact.exactTotal (List.replicate n [MphProbExample.w 0, MphProbExample.w 1]) = n * (-5/2) := by
  have he : (Spec.Arpa.ofData data u (fun _ v => v) (fun _ v => v)).exact.entry [MphProbExample.w 0] = some ((Binary32.ofRat (-2)).1, (Binary32.ofRat (-1)).1) := by
    unfold Spec.Arpa.exact Spec.Arpa.ofData
    simp [data, MphProbExample.data, conv]
  have he2 : (Spec.Arpa.ofData data u (fun _ v => v) (fun _ v => v)).exact.entry [MphProbExample.w 0, MphProbExample.w 1] = some ((Binary32.ofRat (-1/2)).1, (Binary32.ofRat (-1/8)).1) := by
    unfold Spec.Arpa.exact Spec.Arpa.ofData
    simp [data, MphProbExample.data, conv, MphProbExample.w]
  unfold Spec.Arpa.exactTotal
  rw [List.map_replicate, List.sum_replicate]
  rw [List.mapIdx_cons, List.mapIdx_cons, List.mapIdx_nil]
  have e1 : (Spec.Arpa.ofData data u (fun _ v => v) (fun _ v => v)).exact.scoreAt [MphProbExample.w 0, MphProbExample.w 1] 0 (MphProbExample.w 0) = -2 := by
    unfold Spec.Arpa.scoreAt
    rw [List.take_zero, show Spec.Arpa.lastN _ ([] : List (List Byte)) = [] from by simp [Spec.Arpa.lastN], Spec.Arpa.score, he]
    exact v2
  have e2 : (Spec.Arpa.ofData data u (fun _ v => v) (fun _ v => v)).exact.scoreAt [MphProbExample.w 0, MphProbExample.w 1] (0 + 1) (MphProbExample.w 1) = -1/2 := by
    unfold Spec.Arpa.scoreAt
    rw [show Spec.Arpa.lastN ((Spec.Arpa.ofData data u (fun _ v => v) (fun _ v => v)).exact.order - 1)
      (List.take (0 + 1) [MphProbExample.w 0, MphProbExample.w 1]) = [MphProbExample.w 0] from rfl, Spec.Arpa.score]
    rw [show MphProbExample.w 0 :: [] ++ [MphProbExample.w 1] = [MphProbExample.w 0, MphProbExample.w 1] from rfl, he2]
    exact vh
  rw [e1, e2]
  norm_num

/-- The ARPA file of C44's example with `float`s: `n` lines "a b" get a total within (5 + n) / 2^23 of `n (-2 - 1/2)`. -/
example : ∃ t, TrieProb.buildArpa strtod32 fb32 (List.insertionSort (· ≤ ·)) (Binary32.ofRat (-1000)) (Binary32.ofRat (-100))
      (TextExample.mphf3 [MphProbExample.w 0, MphProbExample.w 1, MphProbExample.w 2]) (GramsImpl.fastEF fun _ => FastEF.exMphf) (RanksImpl.cv fun _ => [0#64]) 1
      (Binary32.ofRat (-100)) 2 2 3 (Spec.arpaText 0 0 sections32 [nl]) = some (.ok t) ∧
    ∀ n : Nat, n ≤ 8000000 → ∃ tot, (t.scorer fb32).scoreText (slice (textOf (List.replicate n [MphProbExample.w 0, MphProbExample.w 1]))) 0 0
      (textOf (List.replicate n [MphProbExample.w 0, MphProbExample.w 1])) = some tot ∧ |tot.total.1 - n * (-5/2)| ≤ ((5 + n : Nat) : ℚ) / 2 ^ 23 * |(n : ℚ) * (-5/2)| := by
  obtain ⟨t, qp, qb, e1, e2, e3⟩ := C67_trie_total_of_the_file 0 0 good32 fb32 sort32 (Binary32.ofRat (-1000)) (Binary32.ofRat (-100))
    (Binary32.ofRat (-100)) lists32 words32 trie32 quant32 (by decide) floats32
    (TextExample.built3 (keys := [MphProbExample.w 0, MphProbExample.w 1, MphProbExample.w 2]) rfl (by decide)) hashes32 (junk := fun _ => [0#64]) (by simp)
    contexts logs (le0 (by norm_num)) (le0 (by norm_num))
  refine ⟨t, e1, fun n hn => ?_⟩
  obtain ⟨tot, t1, t2⟩ := e3 0 (le_refl _) (C67_quantisation_within_spread e2 (le_refl _) spread) (List.replicate n [MphProbExample.w 0, MphProbExample.w 1]) 0 2 0 (by
      intro l hl
      rw [List.eq_of_mem_replicate hl]
      refine ⟨by simp, fun w hw => ?_⟩
      simp at hw
      rcases hw with rfl | rfl
      · exact ⟨MphProbExample.w_word _ (by decide), .inl (by simp)⟩
      · exact ⟨MphProbExample.w_word _ (by decide), .inl (by simp)⟩) (by
      intro l hl
      rw [List.eq_of_mem_replicate hl]; simp) (by
      rw [List.length_replicate]; show 3 + 2 + n ≤ _; omega) _ _ rfl rfl
  rw [exact32, List.length_replicate] at t2
  refine ⟨tot, t1, le_trans t2 (le_of_eq ?_)⟩
  rw [mul_zero, zero_mul, mul_zero, add_zero]
  rfl

/-- The same for the hash model. -/
example : ∃ m, MphProb.buildArpa strtod32 fb32 (List.insertionSort (· ≤ ·)) (Binary32.ofRat (-1000)) (Binary32.ofRat (-100)) (Binary32.ofRat (-100)) 200 0
      MphProbExample.hs 2 2 3 (Spec.arpaText 0 0 sections32 [nl]) = some (.ok m) := by
  obtain ⟨m, -, -, e1, -, -⟩ := C67_mph_total_of_the_file 0 0 good32 fb32 sort32 (Binary32.ofRat (-1000)) (Binary32.ofRat (-100))
    (Binary32.ofRat (-100)) 0 lists32 input32 contexts logs (le0 (by norm_num)) (le0 (by norm_num))
  exact ⟨m, e1⟩

end ExactExample

end Tongrams
