/-!
# Specification vocabulary

Small definitions used to *state* properties, independent of the model of the code.
-/

namespace Tongrams.Spec

/-- Number of positions below `n` at which `f` holds. -/
def rank (f : Nat → Bool) (n : Nat) : Nat := (List.range n).countP f

/-- `p` is the position of the `k`-th (counting from 0) position at which `f` holds. -/
def IsSelect (f : Nat → Bool) (k p : Nat) : Prop := f p = true ∧ rank f p = k

@[simp] theorem rank_zero (f : Nat → Bool) : rank f 0 = 0 := rfl

theorem rank_succ (f : Nat → Bool) (n : Nat) :
    rank f (n + 1) = rank f n + (if f n then 1 else 0) := by
  simp [rank, List.range_succ, List.countP_append, List.countP_cons]

theorem rank_add (f : Nat → Bool) (m n : Nat) :
    rank f (m + n) = rank f m + rank (fun i => f (m + i)) n := by
  induction n with
  | zero => simp
  | succ n ih => rw [← Nat.add_assoc, rank_succ, rank_succ, ih]; omega

theorem rank_mono (f : Nat → Bool) {m n : Nat} (h : m ≤ n) : rank f m ≤ rank f n := by
  obtain ⟨d, rfl⟩ := Nat.le.dest h
  rw [rank_add]; omega

theorem rank_le (f : Nat → Bool) (n : Nat) : rank f n ≤ n := by
  induction n with
  | zero => simp
  | succ n ih => rw [rank_succ]; split <;> omega

theorem rank_congr {f g : Nat → Bool} {n : Nat} (h : ∀ i, i < n → f i = g i) :
    rank f n = rank g n := by
  induction n with
  | zero => rfl
  | succ n ih =>
    rw [rank_succ, rank_succ, ih (fun i hi => h i (by omega)), h n (by omega)]

theorem rank_lt_of_select {f : Nat → Bool} {k p n : Nat} (h : IsSelect f k p) (hp : p < n) :
    k < rank f n := by
  have := rank_mono f (show p + 1 ≤ n from hp)
  rw [rank_succ, h.1, h.2] at this
  simp at this; omega

/-- The `k`-th position is unique. -/
theorem select_unique {f : Nat → Bool} {k p q : Nat} (hp : IsSelect f k p) (hq : IsSelect f k q) :
    p = q := by
  rcases Nat.lt_trichotomy p q with h | h | h
  · have := rank_lt_of_select hp h
    have := hq.2; omega
  · exact h
  · have := rank_lt_of_select hq h
    have := hp.2; omega

theorem exists_select {f : Nat → Bool} {k n : Nat} (h : k < rank f n) :
    ∃ p, p < n ∧ IsSelect f k p := by
  induction n with
  | zero => simp at h
  | succ n ih =>
    by_cases hk : k < rank f n
    · obtain ⟨p, hp, hs⟩ := ih hk; exact ⟨p, by omega, hs⟩
    · rw [rank_succ] at h
      by_cases hf : f n
      · simp [hf] at h; exact ⟨n, by omega, hf, by omega⟩
      · simp [hf] at h; omega

theorem rank_false {f : Nat → Bool} {n : Nat} (h : ∀ i, i < n → f i = false) : rank f n = 0 := by
  induction n with
  | zero => rfl
  | succ n ih => rw [rank_succ, ih (fun i hi => h i (by omega)), h n (by omega)]; simp

theorem rank_true {f : Nat → Bool} {n : Nat} (h : ∀ i, i < n → f i = true) : rank f n = n := by
  induction n with
  | zero => rfl
  | succ n ih => rw [rank_succ, ih (fun i hi => h i (by omega)), h n (by omega)]; simp

theorem rank_not (f : Nat → Bool) (n : Nat) : rank (fun i => !f i) n = n - rank f n := by
  induction n with
  | zero => rfl
  | succ n ih =>
    have := rank_le f n
    rw [rank_succ, rank_succ, ih]; cases f n <;> simp <;> omega

end Tongrams.Spec
