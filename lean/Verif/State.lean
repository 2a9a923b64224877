import Mathlib.Tactic.Common
import Mathlib.Logic.Function.Iterate

/-!
# The circular buffer of context words and the scoring state

Models `include/utils/circular_buffer.hpp` and `include/state.hpp`.
Undefined behaviour (an access outside an array, reading an uninitialised float) is `none`.
-/

namespace Tongrams

/-- `circular_buffer<T>` (circular_buffer.hpp:5-68). -/
structure CircBuf (T : Type) where
  capacity : Nat
  begin_ : Nat
  end_ : Nat
  data : List T

namespace CircBuf
variable {T : Type}

/-- Constructor (circular_buffer.hpp:7-10); `resize` value-initialises with `d`. -/
def new (capacity : Nat) (d : T) : CircBuf T := ⟨capacity, 0, 0, List.replicate capacity d⟩

/-- `init` (circular_buffer.hpp:12-15): the data stays in place. -/
def init (c : CircBuf T) : CircBuf T := { c with begin_ := 0, end_ := 0 }

/-- `fall_back` (circular_buffer.hpp:63-67). -/
def fallBack (c : CircBuf T) (x : Nat) : Nat := if x = c.capacity then 0 else x

/-- `push_back` (circular_buffer.hpp:17-27). -/
def pushBack (c : CircBuf T) (x : T) : Option (CircBuf T) :=
  if c.end_ < c.data.length then
    let e := c.fallBack (c.end_ + 1)
    let b := if e = c.begin_ then c.fallBack (c.begin_ + 1) else c.begin_
    some { c with data := c.data.set c.end_ x, end_ := e, begin_ := b }
  else none

/-- `reverse_iterator::operator++` (circular_buffer.hpp:41-46). -/
def rnext (c : CircBuf T) (pos : Nat) : Nat := (if pos = 0 then c.capacity else pos) - 1

/-- `rbegin` (circular_buffer.hpp:30-35, 53-55). -/
def rbegin (c : CircBuf T) : Nat := c.rnext c.end_

/-- `reverse_iterator::operator*` (circular_buffer.hpp:37-39). -/
def deref (c : CircBuf T) (pos : Nat) : Option T := c.data[pos]?

/-- The element the reverse iterator points to after `k` increments. -/
def rget (c : CircBuf T) (k : Nat) : Option T := c.deref (c.rnext^[k] c.rbegin)

/-- A call on a circular buffer that changes it. -/
inductive Op (T : Type) where
  | push (x : T)
  | init

/-- Perform a sequence of calls. -/
def run : List (Op T) → CircBuf T → Option (CircBuf T)
  | [], c => some c
  | .push x :: ops, c => (c.pushBack x).bind (run ops)
  | .init :: ops, c => run ops c.init

end CircBuf

/-- Specification: the items pushed since the last `init`, most recent first. -/
def Spec.recent {T : Type} (ops : List (CircBuf.Op T)) : List T :=
  ops.foldl (fun acc op => match op with | .push x => x :: acc | .init => []) []

namespace CircBuf
variable {T : Type}

/-- The buffer is well formed. -/
structure WF (c : CircBuf T) : Prop where
  cap : 0 < c.capacity
  len : c.data.length = c.capacity
  fin : c.end_ < c.capacity

/-- The buffer's most recent items are those of `h` (most recent first). -/
structure Has (c : CircBuf T) (h : List T) : Prop extends WF c where
  items : ∀ k, k < c.capacity → ∀ x, h[k]? = some x → c.data[(c.end_ + c.capacity - 1 - k) % c.capacity]? = some x

theorem WF.rnext_iter {c : CircBuf T} (w : WF c) {k : Nat} (hk : k < c.capacity) :
    c.rnext^[k] c.rbegin = (c.end_ + c.capacity - 1 - k) % c.capacity := by
  have hc := w.cap
  have he := w.fin
  induction k with
  | zero =>
    simp only [Function.iterate_zero, id, rbegin, rnext]
    split
    · rename_i h; rw [h, Nat.mod_eq_of_lt (by omega)]; omega
    · rename_i h
      rw [show c.end_ + c.capacity - 1 - 0 = (c.end_ - 1) + c.capacity by omega, Nat.add_mod_right,
        Nat.mod_eq_of_lt (by omega)]
  | succ k ih =>
    rw [Function.iterate_succ_apply', ih (by omega)]
    unfold rnext
    by_cases h1 : c.end_ + c.capacity - 1 - k < c.capacity
    · rw [Nat.mod_eq_of_lt h1, Nat.mod_eq_of_lt (by omega), if_neg (by omega)]; omega
    · by_cases h2 : c.end_ + c.capacity - 1 - k = c.capacity
      · rw [h2, Nat.mod_self, if_pos rfl, Nat.mod_eq_of_lt (by omega)]; omega
      · have e1 : (c.end_ + c.capacity - 1 - k) % c.capacity = c.end_ - 1 - k := by
          rw [show c.end_ + c.capacity - 1 - k = (c.end_ - 1 - k) + c.capacity by omega, Nat.add_mod_right,
            Nat.mod_eq_of_lt (by omega)]
        have e2 : (c.end_ + c.capacity - 1 - (k + 1)) % c.capacity = c.end_ - 1 - (k + 1) := by
          rw [show c.end_ + c.capacity - 1 - (k + 1) = (c.end_ - 1 - (k + 1)) + c.capacity by omega,
            Nat.add_mod_right, Nat.mod_eq_of_lt (by omega)]
        rw [e1, e2, if_neg (by omega)]; omega

theorem Has.rget {c : CircBuf T} {h : List T} (w : Has c h) {k : Nat} (hk : k < c.capacity) {x : T}
    (hx : h[k]? = some x) : c.rget k = some x := by
  unfold CircBuf.rget deref
  rw [w.rnext_iter hk]
  exact w.items k hk x hx

theorem WF.rget_isSome {c : CircBuf T} (w : WF c) (k : Nat) : ∃ x, c.rget k = some x := by
  have hc := w.cap
  have hb : ∀ k, c.rnext^[k] c.rbegin < c.capacity := by
    have hstep : ∀ p, p < c.capacity → c.rnext p < c.capacity := by
      intro p hp; unfold rnext; split <;> omega
    intro k
    induction k with
    | zero => exact hstep _ w.fin
    | succ k ih => rw [Function.iterate_succ_apply']; exact hstep _ ih
  have := hb k
  unfold CircBuf.rget deref
  rw [← w.len] at this
  exact ⟨_, List.getElem?_eq_getElem this⟩

theorem new_wf {cap : Nat} (hc : 0 < cap) (d : T) : WF (new cap d) := ⟨hc, by simp [new], hc⟩

theorem WF.has_nil {c : CircBuf T} (w : WF c) : Has c [] := ⟨w, fun _ _ _ h => by simp at h⟩

theorem WF.init {c : CircBuf T} (w : WF c) : WF c.init := ⟨w.cap, w.len, w.cap⟩

theorem Has.push {c : CircBuf T} {h : List T} (w : Has c h) (x : T) :
    ∃ c', c.pushBack x = some c' ∧ Has c' (x :: h) ∧ c'.capacity = c.capacity := by
  have hc := w.cap
  have he := w.fin
  have hl := w.len
  refine ⟨_, if_pos (by omega), ⟨⟨hc, ?_, ?_⟩, ?_⟩, rfl⟩
  · simpa using hl
  · show c.fallBack (c.end_ + 1) < c.capacity
    unfold fallBack; split <;> omega
  · intro k hk y hy
    show (c.data.set c.end_ x)[(c.fallBack (c.end_ + 1) + c.capacity - 1 - k) % c.capacity]? = some y
    have key : (c.fallBack (c.end_ + 1) + c.capacity - 1 - k) % c.capacity = (c.end_ + c.capacity - k) % c.capacity := by
      unfold fallBack
      split
      · rename_i e
        rw [show c.end_ + c.capacity - k = (0 + c.capacity - 1 - k) + c.capacity by simp only at hk; omega,
          Nat.add_mod_right]
      · congr 1; omega
    rw [key]
    change k < c.capacity at hk
    cases k with
    | zero =>
      simp only [List.getElem?_cons_zero, Option.some.injEq] at hy
      rw [Nat.sub_zero, Nat.add_mod_right, Nat.mod_eq_of_lt he, List.getElem?_set_self (by omega), hy]
    | succ k =>
      simp only [List.getElem?_cons_succ] at hy
      have := w.items k (by omega) y hy
      rw [show c.end_ + c.capacity - (k + 1) = c.end_ + c.capacity - 1 - k by omega]
      rw [List.getElem?_set_ne, this]
      intro e
      by_cases h1 : c.end_ + c.capacity - 1 - k < c.capacity
      · rw [Nat.mod_eq_of_lt h1] at e; omega
      · rw [show c.end_ + c.capacity - 1 - k = (c.end_ - 1 - k) + c.capacity by omega, Nat.add_mod_right,
          Nat.mod_eq_of_lt (by omega)] at e
        omega

theorem Has.run {c : CircBuf T} {h : List T} (w : Has c h) (ops : List (Op T)) :
    ∃ c', CircBuf.run ops c = some c' ∧ c'.capacity = c.capacity ∧
      Has c' (ops.foldl (fun acc op => match op with | .push x => x :: acc | .init => []) h) := by
  induction ops generalizing c h with
  | nil => exact ⟨c, rfl, rfl, w⟩
  | cons op ops ih =>
    cases op with
    | push x =>
      obtain ⟨c1, e1, w1, k1⟩ := w.push x
      obtain ⟨c2, e2, k2, w2⟩ := ih w1
      exact ⟨c2, by simp [CircBuf.run, e1, e2], by omega, w2⟩
    | init =>
      obtain ⟨c2, e2, k2, w2⟩ := ih (c := c.init) (h := []) w.toWF.init.has_nil
      exact ⟨c2, e2, k2, w2⟩

end CircBuf

/-- **C19.** For a buffer of any positive capacity, after any sequence of `push_back` and `init` calls — all of which
stay inside the buffer — the reverse iterator yields, in its first `capacity` positions, the items pushed since the
last `init`, most recent first; and dereferencing it never leaves the buffer however far it is advanced. -/
theorem C19_reverse_iteration_yields_recent {T : Type} {cap : Nat} (hc : 0 < cap) (d : T) (ops : List (CircBuf.Op T)) :
    ∃ c, CircBuf.run ops (CircBuf.new cap d) = some c ∧
      (∀ k, k < cap → ∀ x, (Spec.recent ops)[k]? = some x → c.rget k = some x) ∧
      (∀ k, ∃ x, c.rget k = some x) := by
  obtain ⟨c, e, hcap, w⟩ := (CircBuf.new_wf hc d).has_nil.run ops
  exact ⟨c, e, fun k hk x hx => w.rget (by rw [hcap]; exact hk) hx, w.rget_isSome⟩

/-- Non-vacuity and a sanity check on literals: capacity 3, five pushes around an `init`. -/
example : ((CircBuf.run [.push 1, .push 2, .push 3, .push 4, .init, .push 5, .push 6, .push 7, .push 8]
    (CircBuf.new 3 0)).bind fun c => (List.range 3).mapM c.rget) = some [8, 7, 6] := by decide
example : Spec.recent [.push 1, .init, .push 5, .push 6] = [6, 5] := rfl

/-- `prob_model_state<Word>` (state.hpp:12-59). `curr`/`prev` are the two `float[global::max_order]` arrays
(`max_order = 8`, util.hpp:59); an entry that the constructor leaves uninitialised is `none`. -/
structure PState (T F : Type) where
  length : Nat
  words : CircBuf T
  oovs : Nat
  pos : Nat
  curr : List (Option F)
  prev : List (Option F)

/-- `global::max_order` (util.hpp:59). -/
def maxOrder : Nat := 8

namespace PState
variable {T F : Type}

/-- `std::fill(a, a + n, x)` on an array of `max_order` floats; writing past it is undefined. -/
def fill (a : List (Option F)) (n : Nat) (x : F) : Option (List (Option F)) :=
  if n ≤ a.length then some (List.replicate n (some x) ++ a.drop n) else none

/-- Constructor (state.hpp:13-19), with `one` for the literal `1.0`. -/
def new (maxContextLength : Nat) (d : T) (one : F) : Option (PState T F) :=
  (fill (List.replicate maxOrder none) (maxContextLength - 1) one).map fun a =>
    ⟨0, CircBuf.new maxContextLength d, 0, 0, a, a⟩

/-- `advance` (state.hpp:21-23). -/
def advance (s : PState T F) : PState T F := { s with pos := s.pos + 1 }

/-- `finalize` (state.hpp:25-29). -/
def finalize (s : PState T F) : PState T F := { s with pos := 0, curr := s.prev, prev := s.curr }

/-- `add_word` (state.hpp:31-33). -/
def addWord (s : PState T F) (w : T) : Option (PState T F) := (s.words.pushBack w).map fun c => { s with words := c }

/-- `add_backoff` (state.hpp:35-37). -/
def addBackoff (s : PState T F) (b : F) : Option (PState T F) :=
  if s.pos < s.curr.length then some { s with curr := s.curr.set s.pos (some b) } else none

/-- `backoff` (state.hpp:39-41). -/
def backoff (s : PState T F) (i : Nat) : Option F := s.prev[i]?.join

/-- `init` (state.hpp:43-49). -/
def init [Zero F] (s : PState T F) : Option (PState T F) :=
  (fill s.prev s.length 0).map fun a =>
    { s with words := s.words.init, prev := a, length := 0, oovs := 0, pos := 0 }

end PState
end Tongrams
