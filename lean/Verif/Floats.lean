import Mathlib.Algebra.Order.Field.Basic
import Mathlib.Algebra.Order.Floor.Ring
import Mathlib.Data.Rat.Floor
import Mathlib.Data.Rat.Defs
import Mathlib.Algebra.Order.Ring.Rat
import Mathlib.Data.Int.Log
import Mathlib.Tactic.Linarith
import Mathlib.Tactic.Ring
import Mathlib.Tactic.Positivity
import Mathlib.Tactic.NormNum
import Mathlib.Tactic.FieldSimp
import Mathlib.Tactic.Common
import Mathlib.Data.List.Sort

/-!
# Floating-point numbers

What the quantiser and the scorer use of `float` and `double` (sequence_collections.hpp:31-71, score.hpp:8-102), as a class with
the few laws the proofs need, and two models of it: exact arithmetic in an ordered field, and the binary floating-point numbers
of IEEE 754 with rounding to nearest, ties to even, gradual underflow (overflow, infinities and NaN are left out; the two zeros are
identified).
-/

set_option linter.unusedSectionVars false

namespace Tongrams

/-- The operations on `float` used by the code, and on `double` for the sums of bins (`std::accumulate(.., 0.0)`,
sequence_collections.hpp:67-68).  Laws: adding zero changes nothing; the (rounded) difference is monotone; the computed mean of a bin
of acceptable size lies between any bounds of its elements. -/
class FloatArith (F : Type) extends LinearOrder F, Zero F, Add F, Sub F where
  /-- the accumulator, a `double` -/
  Acc : Type
  accZero : Acc
  accAdd : Acc → F → Acc
  /-- `sum / static_cast<float>(n)`, stored in a `float` -/
  accMean : Acc → Nat → F
  /-- sizes of bins for which the mean is accurate enough to stay within the bin -/
  BinOK : Nat → Prop
  add_zero' : ∀ x : F, x + 0 = x
  sub_le_left : ∀ a b c : F, a ≤ b → a - c ≤ b - c
  sub_le_right : ∀ a b c : F, a ≤ b → c - b ≤ c - a
  binOK_mono : ∀ m n, m ≤ n → BinOK n → BinOK m
  mean_bounds : ∀ (l : List F) (lo hi : F), l ≠ [] → BinOK l.length → (∀ x ∈ l, lo ≤ x) → (∀ x ∈ l, x ≤ hi) →
    lo ≤ accMean (l.foldl accAdd accZero) l.length ∧ accMean (l.foldl accAdd accZero) l.length ≤ hi

attribute [instance 50] FloatArith.toLinearOrder FloatArith.toZero FloatArith.toAdd FloatArith.toSub

/-- Specification: the (rounded) distance of two numbers. -/
def Spec.dist {F : Type} [FloatArith F] (v c : F) : F := if c ≤ v then v - c else c - v

/-! ## Exact arithmetic -/

theorem sum_bounds {F : Type} [Field F] [LinearOrder F] [IsStrictOrderedRing F] (l : List F) {lo hi : F}
    (h1 : ∀ x ∈ l, lo ≤ x) (h2 : ∀ x ∈ l, x ≤ hi) (s : F) :
    s + (l.length : F) * lo ≤ l.foldl (· + ·) s ∧ l.foldl (· + ·) s ≤ s + (l.length : F) * hi := by
  induction l generalizing s with
  | nil => simp
  | cons a l ih =>
    obtain ⟨i1, i2⟩ := ih (fun x hx => h1 x (List.mem_cons_of_mem _ hx)) (fun x hx => h2 x (List.mem_cons_of_mem _ hx)) (s + a)
    have a1 := h1 a List.mem_cons_self
    have a2 := h2 a List.mem_cons_self
    rw [List.foldl_cons, List.length_cons]
    push_cast
    constructor <;> nlinarith

/-- Exact arithmetic. -/
@[reducible] def FloatArith.exact (F : Type) [Field F] [LinearOrder F] [IsStrictOrderedRing F] : FloatArith F where
  Acc := F
  accZero := 0
  accAdd s x := s + x
  accMean s n := s / (n : F)
  BinOK _ := True
  add_zero' := add_zero
  sub_le_left _ _ c h := sub_le_sub_right h c
  sub_le_right _ _ c h := sub_le_sub_left h c
  binOK_mono _ _ _ h := h
  mean_bounds l lo hi hne _ h1 h2 := by
    have hpos : (0 : F) < (l.length : F) := by
      have : 0 < l.length := List.length_pos_iff.2 hne
      exact_mod_cast this
    obtain ⟨hs1, hs2⟩ := sum_bounds l h1 h2 0
    rw [zero_add] at hs1 hs2
    rw [le_div_iff₀ hpos, div_le_iff₀ hpos]
    constructor
    · nlinarith
    · nlinarith

instance : FloatArith ℚ := FloatArith.exact ℚ

/-! ## Binary floating point (IEEE 754) -/

namespace Fp

/-- The integer nearest to `y`, the even one of two. -/
def rne (y : ℚ) : ℤ :=
  if y - ⌊y⌋ < 1 / 2 then ⌊y⌋ else if 1 / 2 < y - ⌊y⌋ then ⌊y⌋ + 1 else if ⌊y⌋ % 2 = 0 then ⌊y⌋ else ⌊y⌋ + 1

/-- Exponent of the unit in the last place of a positive `x`: `p` bits of precision, `emin` the least normal exponent. -/
def unitExp (p emin : ℤ) (x : ℚ) : ℤ := max (Int.log 2 x) emin - (p - 1)

/-- A non-negative number rounded to the nearest floating-point number. -/
def rndPos (p emin : ℤ) (x : ℚ) : ℚ := rne (x / 2 ^ unitExp p emin x) * 2 ^ unitExp p emin x

/-- A number rounded to the nearest floating-point number, ties to even. -/
def rnd (p emin : ℤ) (x : ℚ) : ℚ := if 0 ≤ x then rndPos p emin x else -rndPos p emin (-x)

theorem floor_facts (y : ℚ) : (⌊y⌋ : ℚ) ≤ y ∧ y < ⌊y⌋ + 1 := ⟨Int.floor_le y, Int.lt_floor_add_one y⟩

theorem rne_bounds (y : ℚ) : (rne y : ℚ) ≤ y + 1 / 2 ∧ y - 1 / 2 ≤ rne y := by
  obtain ⟨h1, h2⟩ := floor_facts y
  unfold rne
  split
  · constructor <;> linarith
  · split
    · push_cast; constructor <;> linarith
    · split
      · constructor <;> linarith
      · push_cast; constructor <;> linarith

theorem rne_floor (y : ℚ) : ⌊y⌋ ≤ rne y ∧ rne y ≤ ⌊y⌋ + 1 := by
  unfold rne
  split <;> [skip; (split <;> [skip; split])] <;> constructor <;> omega

theorem rne_mono {y z : ℚ} (h : y ≤ z) : rne y ≤ rne z := by
  have hf : ⌊y⌋ ≤ ⌊z⌋ := Int.floor_le_floor h
  rcases eq_or_lt_of_le hf with he | hlt
  · unfold rne
    rw [he]
    by_cases h1 : y - ⌊z⌋ < 1 / 2
    · rw [if_pos h1]
      split <;> [skip; (split <;> [skip; split])] <;> omega
    · have h1' : ¬ z - ⌊z⌋ < 1 / 2 := fun hc => h1 (by linarith)
      rw [if_neg h1, if_neg h1']
      by_cases h2 : 1 / 2 < y - ⌊z⌋
      · have h2' : 1 / 2 < z - ⌊z⌋ := by linarith
        rw [if_pos h2, if_pos h2']
      · rw [if_neg h2]
        by_cases h3 : 1 / 2 < z - ⌊z⌋ <;> by_cases h4 : ⌊z⌋ % 2 = 0 <;> simp only [h3, h4, if_true, if_false] <;> omega
  · have := (rne_floor y).2
    have := (rne_floor z).1
    omega

theorem rne_near {y : ℚ} {n : ℤ} (h1 : (n : ℚ) - 1 / 2 < y) (h2 : y < n + 1 / 2) : rne y = n := by
  obtain ⟨b1, b2⟩ := rne_bounds y
  have a1 : (rne y : ℚ) < n + 1 := by linarith
  have a2 : (n : ℚ) - 1 < rne y := by linarith
  have c1 : rne y < n + 1 := by exact_mod_cast a1
  have c2 : n - 1 < rne y := by exact_mod_cast a2
  omega

theorem rne_int (n : ℤ) : rne (n : ℚ) = n := rne_near (by linarith) (by linarith)

theorem two_zpow_pos (k : ℤ) : (0 : ℚ) < 2 ^ k := zpow_pos (by norm_num) k

theorem zpow_split (a b : ℤ) : (2 : ℚ) ^ (a + b) = 2 ^ a * 2 ^ b := zpow_add₀ (by norm_num) a b

theorem log_le {x : ℚ} (hx : 0 < x) : (2 : ℚ) ^ Int.log 2 x ≤ x := by
  have := Int.zpow_log_le_self (b := 2) (r := x) (by norm_num) hx
  exact_mod_cast this

theorem lt_log (x : ℚ) : x < (2 : ℚ) ^ (Int.log 2 x + 1) := by
  have := Int.lt_zpow_succ_log_self (b := 2) (by norm_num) x
  exact_mod_cast this

theorem le_log_of {x : ℚ} (hx : 0 < x) {k : ℤ} (h : (2 : ℚ) ^ k ≤ x) : k ≤ Int.log 2 x :=
  (Int.zpow_le_iff_le_log (b := 2) (by norm_num) hx).1 (by exact_mod_cast h)

theorem lt_of_log_lt {x : ℚ} (hx : 0 < x) {k : ℤ} (h : Int.log 2 x < k) : x < (2 : ℚ) ^ k := by
  have := (Int.lt_zpow_iff_log_lt (b := 2) (by norm_num) hx).2 h
  exact_mod_cast this

section
variable {p emin : ℤ}

theorem lt_unit (x : ℚ) (hx : 0 < x) : x < 2 ^ (unitExp p emin x + p) := by
  refine lt_of_log_lt hx ?_
  unfold unitExp; omega

/-- `rndPos` of a number within half a unit of a multiple of the unit. -/
theorem rndPos_near {x : ℚ} {m : ℤ} {e : ℤ} (he : unitExp p emin x = e) (h : |x - m * 2 ^ e| < 2 ^ e / 2) : rndPos p emin x = m * 2 ^ e := by
  unfold rndPos
  rw [he]
  have hu := two_zpow_pos e
  rw [abs_lt] at h
  rw [rne_near (n := m) ?_ ?_]
  · rw [lt_div_iff₀ hu]; linarith [h.1]
  · rw [div_lt_iff₀ hu]; linarith [h.2]

theorem rndPos_err (x : ℚ) : |rndPos p emin x - x| ≤ 2 ^ unitExp p emin x / 2 := by
  unfold rndPos
  generalize unitExp p emin x = e
  have hu := two_zpow_pos e
  obtain ⟨b1, b2⟩ := rne_bounds (x / 2 ^ e)
  have hx : x / 2 ^ e * 2 ^ e = x := div_mul_cancel₀ x (ne_of_gt hu)
  rw [abs_le]
  constructor
  · nlinarith [mul_le_mul_of_nonneg_right b2 hu.le]
  · nlinarith [mul_le_mul_of_nonneg_right b1 hu.le]

theorem rndPos_nonneg {x : ℚ} (hx : 0 ≤ x) : 0 ≤ rndPos p emin x := by
  unfold rndPos
  have hu := two_zpow_pos (unitExp p emin x)
  have : rne 0 ≤ rne (x / 2 ^ unitExp p emin x) := rne_mono (div_nonneg hx hu.le)
  have h0 : rne 0 = 0 := by exact_mod_cast rne_int 0
  rw [h0] at this
  exact mul_nonneg (by exact_mod_cast this) hu.le

theorem rndPos_zero : rndPos p emin 0 = 0 := by
  unfold rndPos
  rw [zero_div]
  have h0 : rne 0 = 0 := by exact_mod_cast rne_int 0
  rw [h0]; simp

/-- A multiple of a power of two with at most `p` significant bits is not changed. -/
theorem rndPos_repr {x : ℚ} {m k : ℤ} (hx : 0 < x) (hxm : x = m * 2 ^ k) (hm : m ≤ 2 ^ p.toNat) (hp : 1 ≤ p) (hk : emin - (p - 1) ≤ k) : rndPos p emin x = x := by
  suffices h : ∃ j : ℤ, x = j * 2 ^ unitExp p emin x by
    obtain ⟨j, hj⟩ := h
    have hu := two_zpow_pos (unitExp p emin x)
    have := rndPos_near (p := p) (emin := emin) (m := j) (x := x) rfl (by rw [← hj]; simp; exact hu)
    rw [this, ← hj]
  by_cases hE : unitExp p emin x ≤ k
  · refine ⟨m * 2 ^ (k - unitExp p emin x).toNat, ?_⟩
    push_cast
    rw [mul_assoc, ← zpow_natCast, ← zpow_split, Int.toNat_of_nonneg (by omega), show k - unitExp p emin x + unitExp p emin x = k by omega]
    exact hxm
  · have hlog : k + p ≤ Int.log 2 x := by unfold unitExp at hE; omega
    have h1 : (2 : ℚ) ^ (k + p) ≤ x := le_trans (zpow_le_zpow_right₀ (by norm_num) hlog) (log_le hx)
    have h2 : x ≤ (2 : ℚ) ^ (k + p) := by
      rw [hxm, zpow_split, mul_comm]
      refine mul_le_mul_of_nonneg_left ?_ (two_zpow_pos k).le
      have : ((2 : ℚ) ^ p) = ((2 ^ p.toNat : ℤ) : ℚ) := by
        push_cast; rw [← zpow_natCast, Int.toNat_of_nonneg (by omega)]
      rw [this]
      exact_mod_cast hm
    have hxe : x = (2 : ℚ) ^ (k + p) := le_antisymm h2 h1
    have hl : Int.log 2 x = k + p := by
      rw [hxe]
      have := Int.log_zpow (R := ℚ) (b := 2) (by norm_num) (k + p)
      exact_mod_cast this
    have hE' : unitExp p emin x = k + 1 := by unfold unitExp at hE ⊢; omega
    refine ⟨2 ^ (p - 1).toNat, ?_⟩
    push_cast
    rw [hE', ← zpow_natCast, ← zpow_split, Int.toNat_of_nonneg (by omega), show p - 1 + (k + 1) = k + p by omega]
    exact hxe

theorem rndPos_mono {x y : ℚ} (hp : 1 ≤ p) (hx : 0 ≤ x) (h : x ≤ y) : rndPos p emin x ≤ rndPos p emin y := by
  rcases eq_or_lt_of_le hx with h0 | hx0
  · rw [← h0, rndPos_zero]
    exact rndPos_nonneg (le_trans hx h)
  have hy0 := lt_of_lt_of_le hx0 h
  have hl : Int.log 2 x ≤ Int.log 2 y := Int.log_mono_right hx0 h
  have hle : unitExp p emin x ≤ unitExp p emin y := by unfold unitExp; omega
  rcases eq_or_lt_of_le hle with he | hlt
  · unfold rndPos
    rw [he]
    refine mul_le_mul_of_nonneg_right ?_ (two_zpow_pos _).le
    exact_mod_cast rne_mono (div_le_div_of_nonneg_right h (two_zpow_pos _).le)
  · have hu := two_zpow_pos (unitExp p emin x)
    have hu' := two_zpow_pos (unitExp p emin y)
    -- both are separated by a power of two
    have h1 : rndPos p emin x ≤ 2 ^ (unitExp p emin x + p) := by
      have hxl := lt_unit (p := p) (emin := emin) x hx0
      have e : (2 : ℚ) ^ (unitExp p emin x + p) / 2 ^ unitExp p emin x = ((2 ^ p.toNat : ℤ) : ℚ) := by
        rw [zpow_split, mul_div_cancel_left₀ _ (ne_of_gt hu)]
        push_cast; rw [← zpow_natCast, Int.toNat_of_nonneg (by omega)]
      have hr : rne (x / 2 ^ unitExp p emin x) ≤ 2 ^ p.toNat := by
        have := rne_mono (div_le_div_of_nonneg_right hxl.le hu.le)
        rw [e, rne_int] at this
        exact this
      unfold rndPos
      rw [zpow_split, mul_comm]
      refine mul_le_mul_of_nonneg_left ?_ hu.le
      have : ((2 : ℚ) ^ p) = ((2 ^ p.toNat : ℤ) : ℚ) := by
        push_cast; rw [← zpow_natCast, Int.toNat_of_nonneg (by omega)]
      rw [this]
      exact_mod_cast hr
    have hly : unitExp p emin y = Int.log 2 y - (p - 1) := by unfold unitExp at hlt ⊢; omega
    have h2 : (2 : ℚ) ^ (unitExp p emin y + (p - 1)) ≤ rndPos p emin y := by
      have hyl : (2 : ℚ) ^ (unitExp p emin y + (p - 1)) ≤ y := by
        rw [hly, show Int.log 2 y - (p - 1) + (p - 1) = Int.log 2 y by omega]; exact log_le hy0
      have e : (2 : ℚ) ^ (unitExp p emin y + (p - 1)) / 2 ^ unitExp p emin y = ((2 ^ (p - 1).toNat : ℤ) : ℚ) := by
        rw [zpow_split, mul_div_cancel_left₀ _ (ne_of_gt hu')]
        push_cast; rw [← zpow_natCast, Int.toNat_of_nonneg (by omega)]
      have hr : 2 ^ (p - 1).toNat ≤ rne (y / 2 ^ unitExp p emin y) := by
        have := rne_mono (div_le_div_of_nonneg_right hyl hu'.le)
        rw [e, rne_int] at this
        exact this
      unfold rndPos
      rw [zpow_split, mul_comm]
      refine mul_le_mul_of_nonneg_right ?_ hu'.le
      have : ((2 : ℚ) ^ (p - 1)) = ((2 ^ (p - 1).toNat : ℤ) : ℚ) := by
        push_cast; rw [← zpow_natCast, Int.toNat_of_nonneg (by omega)]
      rw [this]
      exact_mod_cast hr
    exact le_trans h1 (le_trans (zpow_le_zpow_right₀ (by norm_num) (by omega)) h2)

/-- A result of rounding is not changed by rounding again. -/
theorem rndPos_idem {x : ℚ} (hp : 1 ≤ p) (hx : 0 ≤ x) : rndPos p emin (rndPos p emin x) = rndPos p emin x := by
  rcases eq_or_lt_of_le hx with h0 | hx0
  · rw [← h0, rndPos_zero, rndPos_zero]
  rcases eq_or_lt_of_le (rndPos_nonneg (p := p) (emin := emin) hx) with h0 | h1
  · rw [← h0, rndPos_zero]
  have hu := two_zpow_pos (unitExp p emin x)
  refine rndPos_repr (m := rne (x / 2 ^ unitExp p emin x)) (k := unitExp p emin x) h1 rfl ?_ (by omega) (by unfold unitExp; omega)
  have hxl := lt_unit (p := p) (emin := emin) x hx0
  have e : (2 : ℚ) ^ (unitExp p emin x + p) / 2 ^ unitExp p emin x = ((2 ^ p.toNat : ℤ) : ℚ) := by
    rw [zpow_split, mul_div_cancel_left₀ _ (ne_of_gt hu)]
    push_cast; rw [← zpow_natCast, Int.toNat_of_nonneg (by omega)]
  have := rne_mono (div_le_div_of_nonneg_right hxl.le hu.le)
  rw [e, rne_int] at this
  exact this

theorem rnd_neg (x : ℚ) : rnd p emin (-x) = -rnd p emin x := by
  unfold rnd
  rcases lt_trichotomy x 0 with h | h | h
  · rw [if_pos (by linarith), if_neg (by linarith)]; ring
  · rw [h]; simp [rndPos_zero]
  · rw [if_neg (by linarith), if_pos (by linarith), neg_neg]

theorem rnd_mono {x y : ℚ} (hp : 1 ≤ p) (h : x ≤ y) : rnd p emin x ≤ rnd p emin y := by
  unfold rnd
  split
  · rw [if_pos (by linarith)]; exact rndPos_mono hp (by assumption) h
  · split
    · have h1 := rndPos_nonneg (p := p) (emin := emin) (x := -x) (by linarith)
      have h2 := rndPos_nonneg (p := p) (emin := emin) (x := y) (by assumption)
      linarith
    · have := rndPos_mono (p := p) (emin := emin) (x := -y) (y := -x) hp (by linarith) (by linarith)
      linarith

theorem rnd_idem {x : ℚ} (hp : 1 ≤ p) : rnd p emin (rnd p emin x) = rnd p emin x := by
  rcases le_total 0 x with h | h
  · have : rnd p emin x = rndPos p emin x := by unfold rnd; rw [if_pos h]
    rw [this]
    have h1 := rndPos_nonneg (p := p) (emin := emin) h
    rw [rnd, if_pos h1, rndPos_idem hp h]
  · have : rnd p emin x = -rndPos p emin (-x) := by
      rw [← neg_neg x, rnd_neg, neg_neg, rnd, if_pos (by linarith)]
    rw [this, rnd_neg]
    have h1 := rndPos_nonneg (p := p) (emin := emin) (x := -x) (by linarith)
    rw [rnd, if_pos h1, rndPos_idem hp (by linarith)]

theorem rnd_zero : rnd p emin 0 = 0 := by rw [rnd, if_pos (le_refl _), rndPos_zero]

/-- Relative error of the numbers in the normal range. -/
theorem rnd_rel {x : ℚ} (hx : (2 : ℚ) ^ emin ≤ |x|) : |rnd p emin x - x| ≤ |x| * 2 ^ (-p) := by
  have key : ∀ y : ℚ, (2 : ℚ) ^ emin ≤ y → |rndPos p emin y - y| ≤ y * 2 ^ (-p) := by
    intro y hy
    have hy0 : 0 < y := lt_of_lt_of_le (two_zpow_pos _) hy
    refine le_trans (rndPos_err y) ?_
    have hl : emin ≤ Int.log 2 y := le_log_of hy0 hy
    have hu : unitExp p emin y = Int.log 2 y + 1 + (-p) := by unfold unitExp; omega
    rw [hu, zpow_split, zpow_split]
    have := log_le hy0
    have h2 := two_zpow_pos (-p)
    rw [zpow_one]
    nlinarith
  rcases le_total 0 x with h | h
  · rw [rnd, if_pos h]
    rw [abs_of_nonneg h] at hx ⊢
    exact key x hx
  · rw [abs_of_nonpos h] at hx ⊢
    have e : rnd p emin x = -rndPos p emin (-x) := by
      rw [← neg_neg x, rnd_neg, neg_neg, rnd, if_pos (by linarith)]
    rw [e, show -rndPos p emin (-x) - x = -(rndPos p emin (-x) - (-x)) by ring, abs_neg]
    exact key (-x) hx

/-- A number very close to a floating-point number is rounded to it. -/
theorem rnd_absorb {x y : ℚ} (hp : 1 ≤ p) (hx : rnd p emin x = x) (h : |y - x| ≤ |x| * 2 ^ (-(p + 2))) : rnd p emin y = x := by
  have key : ∀ x y : ℚ, 0 < x → rndPos p emin x = x → |y - x| ≤ x * 2 ^ (-(p + 2)) → rnd p emin y = x := by
    intro x y hx0 hx h
    have hq := two_zpow_pos (-(p + 2))
    have hq1 : (2 : ℚ) ^ (-(p + 2)) ≤ 1 / 8 := by
      have := zpow_le_zpow_right₀ (a := (2 : ℚ)) (by norm_num) (show -(p + 2) ≤ -3 by omega)
      norm_num at this ⊢
      exact this
    have hu := two_zpow_pos (unitExp p emin x)
    obtain ⟨m, hm⟩ : ∃ m : ℤ, x = m * 2 ^ unitExp p emin x := ⟨_, hx.symm⟩
    have hxlt := lt_unit (p := p) (emin := emin) x hx0
    have hmlt : m + 1 ≤ 2 ^ p.toNat := by
      have h1 : (m : ℚ) * 2 ^ unitExp p emin x < 2 ^ p * 2 ^ unitExp p emin x := by rw [← hm, ← zpow_split, add_comm]; exact hxlt
      have h2 : (m : ℚ) < 2 ^ p := lt_of_mul_lt_mul_right h1 hu.le
      have : ((2 : ℚ) ^ p) = ((2 ^ p.toNat : ℤ) : ℚ) := by
        push_cast; rw [← zpow_natCast, Int.toNat_of_nonneg (by omega)]
      rw [this] at h2
      have : m < 2 ^ p.toNat := by exact_mod_cast h2
      omega
    -- the distance is less than a quarter of the unit
    have hd : |y - x| < 2 ^ unitExp p emin x / 4 := by
      refine lt_of_le_of_lt h ?_
      have : x * 2 ^ (-(p + 2)) < 2 ^ (unitExp p emin x + p) * 2 ^ (-(p + 2)) := by nlinarith
      refine lt_of_lt_of_eq this ?_
      rw [← zpow_split, show unitExp p emin x + p + -(p + 2) = unitExp p emin x + (-2) by omega, zpow_split]
      norm_num; ring
    have hy0 : 0 < y := by
      have := (abs_le.1 h).1
      nlinarith
    rw [rnd, if_pos hy0.le]
    rcases lt_trichotomy (unitExp p emin y) (unitExp p emin x) with hlt | heq | hgt
    · have hlx : unitExp p emin x = Int.log 2 x - (p - 1) := by unfold unitExp at hlt ⊢; omega
      have hyx : x / 2 ≤ y := by
        have := (abs_le.1 h).1
        nlinarith
      have hly : Int.log 2 x - 1 ≤ Int.log 2 y := by
        refine le_log_of hy0 (le_trans ?_ hyx)
        have := log_le hx0
        rw [show Int.log 2 x - 1 = Int.log 2 x + (-1) by omega, zpow_split]
        norm_num; linarith
      have hE : unitExp p emin y = unitExp p emin x - 1 := by unfold unitExp at hlt hlx ⊢; omega
      have hhalf : (2 : ℚ) ^ (unitExp p emin x - 1) = 2 ^ unitExp p emin x / 2 := by
        rw [show unitExp p emin x - 1 = unitExp p emin x + (-1) by omega, zpow_split]; norm_num; ring
      have hxx : ((2 * m : ℤ) : ℚ) * 2 ^ (unitExp p emin x - 1) = x := by
        rw [hhalf]; push_cast; linarith
      rw [rndPos_near (m := 2 * m) hE (by rw [hxx, hhalf]; linarith), hxx]
    · rw [rndPos_near (m := m) heq (by rw [← hm]; linarith), ← hm]
    · exfalso
      have hly : unitExp p emin x + p ≤ Int.log 2 y := by unfold unitExp at hgt ⊢; omega
      have h1 : (2 : ℚ) ^ (unitExp p emin x + p) ≤ y := le_trans (zpow_le_zpow_right₀ (by norm_num) hly) (log_le hy0)
      have h2 : x + 2 ^ unitExp p emin x ≤ 2 ^ (unitExp p emin x + p) := by
        have : ((2 : ℚ) ^ p) = ((2 ^ p.toNat : ℤ) : ℚ) := by
          push_cast; rw [← zpow_natCast, Int.toNat_of_nonneg (by omega)]
        have hmq : (m : ℚ) + 1 ≤ 2 ^ p := by rw [this]; exact_mod_cast hmlt
        have := mul_le_mul_of_nonneg_right hmq hu.le
        rw [← zpow_split, add_comm p, add_mul, ← hm, one_mul] at this
        exact this
      have := (abs_lt.1 hd).2
      linarith
  rcases lt_trichotomy x 0 with hx0 | hx0 | hx0
  · have hxx : rndPos p emin (-x) = -x := by
      rw [rnd, if_neg (by linarith)] at hx; linarith
    rw [abs_of_neg hx0] at h
    have := key (-x) (-y) (by linarith) hxx (by rw [show -y - -x = -(y - x) by ring, abs_neg]; exact h)
    rw [rnd_neg] at this; linarith
  · rw [hx0] at h ⊢
    simp at h
    rw [h, rnd_zero]
  · rw [abs_of_pos hx0] at h
    rw [rnd, if_pos hx0.le] at hx
    exact key x y hx0 hx h

end

/-- Rounding to `float` (binary32): 24 bits, least normal exponent -126. -/
def rndF (x : ℚ) : ℚ := rnd 24 (-126) x

/-- Rounding to `double` (binary64): 53 bits, least normal exponent -1022. -/
def rndD (x : ℚ) : ℚ := rnd 53 (-1022) x

theorem float_min {x : ℚ} (hx : rndF x = x) (h0 : x ≠ 0) : (2 : ℚ) ^ (-149 : ℤ) ≤ |x| := by
  have key : ∀ y : ℚ, 0 < y → rndPos 24 (-126) y = y → (2 : ℚ) ^ (-149 : ℤ) ≤ y := by
    intro y hy0 hy
    have hu := two_zpow_pos (unitExp 24 (-126) y)
    have hle : (2 : ℚ) ^ (-149 : ℤ) ≤ 2 ^ unitExp 24 (-126) y :=
      zpow_le_zpow_right₀ (by norm_num) (by unfold unitExp; omega)
    refine le_trans hle ?_
    unfold rndPos at hy
    have hpos : 0 < rne (y / 2 ^ unitExp 24 (-126) y) := by
      by_contra hc
      have : (rne (y / 2 ^ unitExp 24 (-126) y) : ℚ) ≤ 0 := by exact_mod_cast not_lt.1 hc
      nlinarith
    have h1 : (1 : ℚ) ≤ rne (y / 2 ^ unitExp 24 (-126) y) := by exact_mod_cast hpos
    nlinarith
  rcases lt_or_gt_of_ne h0 with h | h
  · rw [abs_of_neg h]
    refine key _ (by linarith) ?_
    unfold rndF at hx
    rw [rnd, if_neg (by linarith)] at hx; linarith
  · rw [abs_of_pos h]
    refine key _ h ?_
    unfold rndF at hx
    rwa [rnd, if_pos h.le] at hx

/-- A small integer is a `float`. -/
theorem rndF_nat {n : Nat} (h : n ≤ 2 ^ 24) : rndF (n : ℚ) = n := by
  rcases Nat.eq_zero_or_pos n with rfl | hn
  · rw [Nat.cast_zero]; exact rnd_zero
  · have hq : (0 : ℚ) < n := by exact_mod_cast hn
    unfold rndF
    rw [rnd, if_pos hq.le]
    refine rndPos_repr (m := n) (k := 0) hq (by simp) ?_ (by norm_num) (by norm_num)
    show (n : ℤ) ≤ 2 ^ 24
    exact_mod_cast h

/-- The sum of `n` copies of `c` as computed. -/
def copies (c : ℚ) : Nat → ℚ → ℚ
  | 0, s => s
  | n + 1, s => copies c n (rndD (s + c))

theorem copies_succ (c : ℚ) (n : Nat) (s : ℚ) : copies c (n + 1) s = rndD (copies c n s + c) := by
  induction n generalizing s with
  | zero => rfl
  | succ n ih => rw [copies, ih, copies]

theorem rndD_mono {x y : ℚ} (h : x ≤ y) : rndD x ≤ rndD y := rnd_mono (by norm_num) h
theorem rndF_mono {x y : ℚ} (h : x ≤ y) : rndF x ≤ rndF y := rnd_mono (by norm_num) h

theorem fold_ge (l : List ℚ) {c : ℚ} (h : ∀ x ∈ l, c ≤ x) {s t : ℚ} (hst : s ≤ t) :
    copies c l.length s ≤ l.foldl (fun s x => rndD (s + x)) t := by
  induction l generalizing s t with
  | nil => exact hst
  | cons a l ih =>
    have ha := h a List.mem_cons_self
    exact ih (fun x hx => h x (List.mem_cons_of_mem _ hx)) (rndD_mono (by linarith))

theorem fold_le (l : List ℚ) {c : ℚ} (h : ∀ x ∈ l, x ≤ c) {s t : ℚ} (hst : t ≤ s) :
    l.foldl (fun s x => rndD (s + x)) t ≤ copies c l.length s := by
  induction l generalizing s t with
  | nil => exact hst
  | cons a l ih =>
    have ha := h a List.mem_cons_self
    exact ih (fun x hx => h x (List.mem_cons_of_mem _ hx)) (rndD_mono (by linarith))

theorem copies_zero (n : Nat) : copies 0 n 0 = 0 := by
  induction n with
  | zero => rfl
  | succ n ih => rw [copies_succ, ih, add_zero]; exact rnd_zero

theorem copies_err {c : ℚ} (hc : (2 : ℚ) ^ (-149 : ℤ) ≤ |c|) (n : Nat) (hn : n ≤ 2 ^ 24) :
    |copies c n 0 - n * c| ≤ 2 * 2 ^ (-53 : ℤ) * (n : ℚ) ^ 2 * |c| := by
  induction n with
  | zero => simp [copies]
  | succ n ih =>
    have ih := ih (by omega)
    rw [copies_succ]
    generalize copies c n 0 = L at ih
    have hn' : (n : ℚ) ≤ 2 ^ 24 := by exact_mod_cast (show n ≤ 2 ^ 24 by omega)
    have hn0 : (0 : ℚ) ≤ n := by positivity
    have hcpos : 0 < |c| := lt_of_lt_of_le (two_zpow_pos _) hc
    have hsum : |L + c - (n + 1) * c| ≤ 2 * 2 ^ (-53 : ℤ) * (n : ℚ) ^ 2 * |c| := by
      rw [show L + c - (n + 1) * c = L - n * c by ring]; exact ih
    have hun : 2 * (2 : ℚ) ^ (-53 : ℤ) * (n : ℚ) ^ 2 ≤ n / 2 := by
      have : (2 : ℚ) ^ (-53 : ℤ) * (n : ℚ) ≤ 2 ^ (-29 : ℤ) := by
        have h1 := mul_le_mul_of_nonneg_left hn' (two_zpow_pos (-53)).le
        refine le_trans h1 ?_
        norm_num
      have h2 : (2 : ℚ) ^ (-29 : ℤ) ≤ 1 / 4 := by norm_num
      nlinarith
    have habs : |(n + 1 : ℚ) * c| = (n + 1) * |c| := by rw [abs_mul, abs_of_pos (by positivity)]
    have hlow : |c| ≤ |L + c| := by
      have h1 := abs_sub_abs_le_abs_sub ((n + 1 : ℚ) * c) (L + c)
      rw [abs_sub_comm, habs] at h1
      have h2 : 2 * (2 : ℚ) ^ (-53 : ℤ) * (n : ℚ) ^ 2 * |c| ≤ n / 2 * |c| := mul_le_mul_of_nonneg_right hun hcpos.le
      have h3 : 0 ≤ (n : ℚ) * |c| := mul_nonneg hn0 hcpos.le
      have h4 : (n + 1 : ℚ) * |c| - |L + c| ≤ n / 2 * |c| := le_trans h1 (le_trans hsum h2)
      generalize |L + c| = X at *
      generalize |c| = Y at *
      linarith
    have hup : |L + c| ≤ (n + 1) * |c| + 2 * 2 ^ (-53 : ℤ) * (n : ℚ) ^ 2 * |c| := by
      have h1 := abs_sub_abs_le_abs_sub (L + c) ((n + 1 : ℚ) * c)
      rw [habs] at h1
      linarith
    have hr : |rndD (L + c) - (L + c)| ≤ |L + c| * 2 ^ (-53 : ℤ) := by
      refine rnd_rel (le_trans ?_ (le_trans hc hlow))
      exact zpow_le_zpow_right₀ (by norm_num) (by norm_num)
    have htri : |rndD (L + c) - ((n + 1 : ℕ) : ℚ) * c| ≤ |rndD (L + c) - (L + c)| + |L + c - (n + 1) * c| := by
      have := abs_add_le (rndD (L + c) - (L + c)) (L + c - (n + 1) * c)
      refine le_trans (le_of_eq ?_) this
      congr 1; push_cast; ring
    refine le_trans htri (le_trans (add_le_add hr hsum) ?_)
    have hu0 := (two_zpow_pos (-53)).le
    have h3 : |L + c| * 2 ^ (-53 : ℤ) ≤ ((n + 1) * |c| + 2 * 2 ^ (-53 : ℤ) * (n : ℚ) ^ 2 * |c|) * 2 ^ (-53 : ℤ) :=
      mul_le_mul_of_nonneg_right hup hu0
    refine le_trans (add_le_add_left h3 _) ?_
    have h4 : 2 * 2 ^ (-53 : ℤ) * (n : ℚ) ^ 2 * |c| * 2 ^ (-53 : ℤ) ≤ n / 2 * |c| * 2 ^ (-53 : ℤ) :=
      mul_le_mul_of_nonneg_right (mul_le_mul_of_nonneg_right hun hcpos.le) hu0
    push_cast
    generalize (2 : ℚ) ^ (-53 : ℤ) = u at *
    have h5 : 0 ≤ u * |c| := mul_nonneg hu0 hcpos.le
    nlinarith [mul_nonneg h5 hn0]

/-- The computed mean of `n` copies of a `float` is that `float`. -/
theorem copies_mean {c : ℚ} (hc : rndF c = c) {n : Nat} (h1 : 1 ≤ n) (hn : n ≤ 2 ^ 24) : rndF (rndD (copies c n 0 / rndF n)) = c := by
  rw [rndF_nat hn]
  rcases eq_or_ne c 0 with h0 | h0
  · rw [h0, copies_zero, zero_div, rndD, rnd_zero, rndF, rnd_zero]
  have hmin := float_min hc h0
  have herr := copies_err hmin n hn
  have hcpos : 0 < |c| := lt_of_lt_of_le (two_zpow_pos _) hmin
  have hnpos : (0 : ℚ) < n := by exact_mod_cast h1
  have hn' : (n : ℚ) ≤ 2 ^ 24 := by exact_mod_cast hn
  generalize copies c n 0 = L at herr
  have hq : |L / n - c| ≤ |c| * 2 ^ (-28 : ℤ) := by
    rw [show L / n - c = (L - n * c) / n by field_simp, abs_div, abs_of_pos hnpos, div_le_iff₀ hnpos]
    refine le_trans herr ?_
    have : 2 * (2 : ℚ) ^ (-53 : ℤ) * n ≤ 2 ^ (-28 : ℤ) := by
      have h1 := mul_le_mul_of_nonneg_left hn' (show (0 : ℚ) ≤ 2 * 2 ^ (-53 : ℤ) by positivity)
      refine le_trans h1 ?_
      norm_num
    have h2 := mul_le_mul_of_nonneg_right this (show (0 : ℚ) ≤ n * |c| by positivity)
    nlinarith
  have hlow : |c| / 2 ≤ |L / n| := by
    have h1 := abs_sub_abs_le_abs_sub c (L / n)
    rw [abs_sub_comm] at h1
    have h2 : (2 : ℚ) ^ (-28 : ℤ) ≤ 1 / 2 := by norm_num
    nlinarith
  have hup : |L / n| ≤ 2 * |c| := by
    have h1 := abs_sub_abs_le_abs_sub (L / n) c
    have h2 : (2 : ℚ) ^ (-28 : ℤ) ≤ 1 / 2 := by norm_num
    nlinarith
  have hr : |rndD (L / n) - L / n| ≤ |L / n| * 2 ^ (-53 : ℤ) := by
    refine rnd_rel (le_trans ?_ hlow)
    have : (2 : ℚ) ^ (-1022 : ℤ) ≤ 2 ^ (-150 : ℤ) := zpow_le_zpow_right₀ (by norm_num) (by norm_num)
    refine le_trans this ?_
    have h150 : (2 : ℚ) ^ (-150 : ℤ) = 2 ^ (-149 : ℤ) / 2 := by
      rw [show (-150 : ℤ) = -149 + -1 by norm_num, zpow_split]; norm_num
    rw [h150]
    exact div_le_div_of_nonneg_right hmin (by norm_num)
  refine rnd_absorb (by norm_num) hc ?_
  have htri := abs_add_le (rndD (L / n) - L / n) (L / n - c)
  rw [show rndD (L / n) - L / n + (L / n - c) = rndD (L / n) - c by ring] at htri
  refine le_trans htri (le_trans (add_le_add hr hq) ?_)
  have h53 : (2 : ℚ) ^ (-53 : ℤ) ≤ 2 ^ (-30 : ℤ) := zpow_le_zpow_right₀ (by norm_num) (by norm_num)
  have h1 : |L / n| * 2 ^ (-53 : ℤ) ≤ 2 * |c| * 2 ^ (-30 : ℤ) := mul_le_mul hup h53 (two_zpow_pos _).le (by positivity)
  refine le_trans (add_le_add_left h1 _) ?_
  have : 2 * |c| * (2 : ℚ) ^ (-30 : ℤ) + |c| * 2 ^ (-28 : ℤ) = |c| * (2 * 2 ^ (-30 : ℤ) + 2 ^ (-28 : ℤ)) := by ring
  rw [this]
  refine mul_le_mul_of_nonneg_left ?_ hcpos.le
  norm_num

end Fp

/-- The finite `float`s: rationals that rounding to binary32 leaves unchanged. -/
def Binary32 : Type := { x : ℚ // Fp.rndF x = x }

namespace Binary32
open Fp

/-- The `float` nearest to a rational. -/
def ofRat (x : ℚ) : Binary32 := ⟨rndF x, rnd_idem (by norm_num)⟩

instance : LinearOrder Binary32 := inferInstanceAs (LinearOrder { x : ℚ // rndF x = x })
instance : Zero Binary32 := ⟨⟨0, rnd_zero⟩⟩
/-- `float` addition and subtraction round the exact result. -/
instance : Add Binary32 := ⟨fun a b => ofRat (a.1 + b.1)⟩
instance : Sub Binary32 := ⟨fun a b => ofRat (a.1 - b.1)⟩

theorem foldl_val (l : List Binary32) (s : ℚ) :
    l.foldl (fun s (x : Binary32) => rndD (s + x.1)) s = (l.map (·.1)).foldl (fun s x => rndD (s + x)) s := by
  rw [List.foldl_map]

/-- `float` arithmetic: every operation rounds; sums of bins are accumulated in `double`; bins of up to 2^24 elements. -/
instance : FloatArith Binary32 where
  Acc := ℚ
  accZero := 0
  accAdd s x := rndD (s + x.1)
  accMean s n := ofRat (rndD (s / rndF n))
  BinOK n := n ≤ 2 ^ 24
  add_zero' x := by
    apply Subtype.ext
    show rndF (x.1 + 0) = x.1
    rw [add_zero]; exact x.2
  sub_le_left a b c h := by
    show rndF (a.1 - c.1) ≤ rndF (b.1 - c.1)
    have h' : a.1 ≤ b.1 := h
    exact rndF_mono (by linarith)
  sub_le_right a b c h := by
    show rndF (c.1 - b.1) ≤ rndF (c.1 - a.1)
    have h' : a.1 ≤ b.1 := h
    exact rndF_mono (by linarith)
  binOK_mono m n h1 h2 := by omega
  mean_bounds l lo hi hne hn h1 h2 := by
    have hl : 1 ≤ l.length := List.length_pos_iff.2 hne
    have hpos : (0 : ℚ) ≤ rndF l.length := by rw [rndF_nat hn]; positivity
    have hlen : (l.map (·.1)).length = l.length := List.length_map _
    have g1 := fold_ge (l.map (·.1)) (c := lo.1) (by
      intro x hx; obtain ⟨y, hy, rfl⟩ := List.mem_map.1 hx; exact h1 y hy) (le_refl 0)
    have g2 := fold_le (l.map (·.1)) (c := hi.1) (by
      intro x hx; obtain ⟨y, hy, rfl⟩ := List.mem_map.1 hx; exact h2 y hy) (le_refl 0)
    rw [hlen, ← foldl_val] at g1 g2
    constructor
    · show lo.1 ≤ rndF (rndD (l.foldl (fun s (x : Binary32) => rndD (s + x.1)) 0 / rndF l.length))
      calc lo.1 = rndF (rndD (copies lo.1 l.length 0 / rndF l.length)) := (copies_mean lo.2 hl hn).symm
        _ ≤ _ := rndF_mono (rndD_mono (div_le_div_of_nonneg_right g1 hpos))
    · show rndF (rndD (l.foldl (fun s (x : Binary32) => rndD (s + x.1)) 0 / rndF l.length)) ≤ hi.1
      calc _ ≤ rndF (rndD (copies hi.1 l.length 0 / rndF l.length)) := rndF_mono (rndD_mono (div_le_div_of_nonneg_right g2 hpos))
        _ = hi.1 := copies_mean hi.2 hl hn

end Binary32
end Tongrams
