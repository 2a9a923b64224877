import Verif.PropsBytes
import Verif.Trie

/-!
# C40: the pools of n-grams (utils/pools.hpp)

`grams_counts_pool` and `grams_probs_pool` are the same code for two types of values: `V` is the count, or the
probability and backoff.
-/

namespace Tongrams

/-- `grams_counts_pool` (pools.hpp:102-166), `grams_probs_pool` (pools.hpp:47-100).  `bytes` is `m_strings_pool`; the pointers of the index are
relative to `m_base_addr`.  `capacity` is the capacity of the vector: growing beyond it moves the bytes and leaves all the pointers of the index dangling. -/
structure Pool (V : Type) where
  maxBytes : Nat
  capacity : Nat
  bytes : Mem
  index : List (ByteRange × V)

namespace Pool
variable {V : Type}

/-- The constructors (pools.hpp:48-56, 103-111): `reserve` gives a capacity of at least `num_bytes`, here `num_bytes + extra`. -/
def new (numBytes extra : Nat) : Pool V := { maxBytes := numBytes, capacity := numBytes + extra, bytes := [], index := [] }

/-- `append` (pools.hpp:58-84, 113-137); moving the bytes is undefined behaviour for the pointers held. -/
def append (p : Pool V) (gram : List Byte) (v : V) : Option (Bool × Pool V) :=
  if gram.length ≠ 0 then
    if p.maxBytes < p.bytes.length + gram.length then some (false, p)
    else if p.capacity < p.bytes.length + gram.length then none
    else some (true, { p with bytes := p.bytes ++ gram, index := p.index ++ [((p.bytes.length, p.bytes.length + gram.length), v)] })
  else some (true, p)

/-- `clear` (pools.hpp:86-89, 152-155). -/
def clear (p : Pool V) : Pool V := { p with bytes := [], index := [] }

/-- What the index shows: the bytes of each n-gram and its value. -/
def records (p : Pool V) : List (List Byte × V) := p.index.map fun e => (slice p.bytes e.1, e.2)

/-- A call of the interface. -/
inductive Op (V : Type) where
  | append (gram : List Byte) (v : V)
  | clear

/-- A sequence of calls: the values returned by `append`. -/
def run (p : Pool V) : List (Op V) → Option (List Bool × Pool V)
  | [] => some ([], p)
  | .append g v :: ops => (p.append g v).bind fun x => (run x.2 ops).map fun y => (x.1 :: y.1, y.2)
  | .clear :: ops => run p.clear ops

/-- `load_from` (pools.hpp:139-150) of the lines `ls`. -/
def loadFrom (p : Pool V) (ls : List (List Byte × V)) : Res (Pool V) := go p.clear ls
where
  go (p : Pool V) : List (List Byte × V) → Res (Pool V)
    | [] => some (.ok p)
    | l :: ls => Option.bind (p.append l.1 l.2) fun x => if x.1 then go x.2 ls else some (.error ())

end Pool

/-- Specification: a bounded bag of n-grams: what it holds after a sequence of calls from the content `held`, and what `append` answers — `true` if the
n-gram is empty (ignored) or fits in the room left. -/
def Spec.pool {V : Type} (max : Nat) : List (List Byte × V) → List (Pool.Op V) → List Bool × List (List Byte × V)
  | held, [] => ([], held)
  | held, .append g v :: ops =>
    if g = [] then (true :: (Spec.pool max held ops).1, (Spec.pool max held ops).2)
    else if (held.map (·.1.length)).sum + g.length ≤ max then
      (true :: (Spec.pool max (held ++ [(g, v)]) ops).1, (Spec.pool max (held ++ [(g, v)]) ops).2)
    else (false :: (Spec.pool max held ops).1, (Spec.pool max held ops).2)
  | _, .clear :: ops => Spec.pool max [] ops

/-! ## Proofs -/

namespace Pool
variable {V : Type}

/-- The pool holds these records. -/
structure Holds (p : Pool V) (held : List (List Byte × V)) : Prop where
  bytes : p.bytes = held.flatMap (·.1)
  records : p.records = held
  inb : ∀ e ∈ p.index, InMem p.bytes e.1
  max : p.bytes.length ≤ p.maxBytes
  cap : p.maxBytes ≤ p.capacity

theorem Holds.len {p : Pool V} {held : List (List Byte × V)} (h : p.Holds held) : p.bytes.length = (held.map (·.1.length)).sum := by
  rw [h.bytes, List.length_flatMap]

theorem slice_append {m t : Mem} {r : ByteRange} (h : InMem m r) : slice (m ++ t) r = slice m r := by
  obtain ⟨h1, h2⟩ := h
  unfold slice
  rw [List.drop_append_of_le_length (by omega), List.take_append_of_le_length (by rw [List.length_drop]; omega)]

theorem append_ok {p : Pool V} {held : List (List Byte × V)} (h : p.Holds held) (g : List Byte) (v : V) :
    (g = [] → p.append g v = some (true, p)) ∧
    (g ≠ [] → p.bytes.length + g.length ≤ p.maxBytes → ∃ p', p.append g v = some (true, p') ∧ p'.maxBytes = p.maxBytes ∧ p'.Holds (held ++ [(g, v)])) ∧
    (g ≠ [] → p.maxBytes < p.bytes.length + g.length → p.append g v = some (false, p)) := by
  refine ⟨?_, ?_, ?_⟩
  · rintro rfl
    unfold append
    rw [if_neg (by simp)]
  · intro hg hle
    have hpos := List.length_pos_iff.2 hg
    have hc := h.cap
    refine ⟨{ p with bytes := p.bytes ++ g, index := p.index ++ [((p.bytes.length, p.bytes.length + g.length), v)] },
      by unfold append; rw [if_pos (by omega), if_neg (by omega), if_neg (by omega)], rfl, ?_, ?_, ?_, ?_, h.cap⟩
    · show p.bytes ++ g = _
      rw [h.bytes]; simp
    · show (p.index ++ [_]).map (fun e : ByteRange × V => (slice (p.bytes ++ g) e.1, e.2)) = _
      rw [List.map_append]
      congr 1
      · rw [← h.records]
        unfold records
        apply List.map_congr_left
        intro e he
        rw [slice_append (h.inb e he)]
      · simp only [List.map_cons, List.map_nil, List.cons.injEq, Prod.mk.injEq, and_true]
        unfold slice
        show ((p.bytes ++ g).drop p.bytes.length).take (p.bytes.length + g.length - p.bytes.length) = g
        rw [List.drop_left, Nat.add_sub_cancel_left, List.take_length]
    · intro e he
      rcases List.mem_append.1 he with he | he
      · obtain ⟨h1, h2⟩ := h.inb e he
        exact ⟨h1, by show _ ≤ (p.bytes ++ g).length; rw [List.length_append]; omega⟩
      · simp only [List.mem_singleton] at he
        subst he
        exact ⟨by show p.bytes.length ≤ _; simp, by show p.bytes.length + g.length ≤ (p.bytes ++ g).length; simp⟩
    · show (p.bytes ++ g).length ≤ _
      rw [List.length_append]; exact hle
  · intro hg hlt
    have hpos := List.length_pos_iff.2 hg
    unfold append
    rw [if_pos (by omega), if_pos hlt]

theorem new_holds (n e : Nat) : (new n e : Pool V).Holds [] :=
  ⟨rfl, rfl, by intro e he; simp [new] at he, Nat.zero_le _, Nat.le_add_right _ _⟩

theorem clear_holds {p : Pool V} {held : List (List Byte × V)} (h : p.Holds held) : p.clear.Holds [] :=
  ⟨rfl, rfl, by intro e he; simp [clear] at he, Nat.zero_le _, h.cap⟩

theorem run_ok (ops : List (Op V)) {p : Pool V} {held : List (List Byte × V)} (h : p.Holds held) :
    ∃ p', p.run ops = some ((Spec.pool p.maxBytes held ops).1, p') ∧ p'.Holds (Spec.pool p.maxBytes held ops).2 ∧ p'.maxBytes = p.maxBytes := by
  induction ops generalizing p held with
  | nil => exact ⟨p, rfl, h, rfl⟩
  | cons op ops ih =>
    cases op with
    | clear =>
      obtain ⟨p', h1, h2, h3⟩ := ih (clear_holds h)
      exact ⟨p', h1, h2, h3⟩
    | append g v =>
      obtain ⟨a1, a2, a3⟩ := append_ok h g v
      by_cases hg : g = []
      · obtain ⟨p', h1, h2, h3⟩ := ih h
        simp only [run, Spec.pool, a1 hg, Option.bind_some, h1, Option.map_some, if_pos hg]
        exact ⟨p', rfl, h2, h3⟩
      · by_cases hle : p.bytes.length + g.length ≤ p.maxBytes
        · obtain ⟨q, b1, b2, b3⟩ := a2 hg hle
          obtain ⟨p', h1, h2, h3⟩ := ih b3
          rw [b2] at h1 h2 h3
          simp only [run, Spec.pool, b1, Option.bind_some, h1, Option.map_some, if_neg hg, if_pos (h.len ▸ hle)]
          exact ⟨p', rfl, h2, h3⟩
        · obtain ⟨p', h1, h2, h3⟩ := ih h
          simp only [run, Spec.pool, a3 hg (by omega), Option.bind_some, h1, Option.map_some, if_neg hg, if_neg (h.len ▸ hle)]
          exact ⟨p', rfl, h2, h3⟩

end Pool

/-- **C40**.  After any sequence of `append` and `clear` on a new pool, `append` has answered what the specification says, the index shows exactly the
non-empty n-grams accepted since the last `clear`, in order and with their bytes unchanged, and the bytes held never exceed the size given. -/
theorem C40_pool_contents {V : Type} (numBytes extra : Nat) (ops : List (Pool.Op V)) :
    ∃ p, (Pool.new numBytes extra).run ops = some ((Spec.pool numBytes [] ops).1, p) ∧ p.records = (Spec.pool numBytes [] ops).2 ∧
      p.bytes.length ≤ numBytes := by
  obtain ⟨p, h1, h2, h3⟩ := Pool.run_ok ops (Pool.new_holds numBytes extra)
  exact ⟨p, h1, h2.records, by have := h2.max; rw [h3] at this; exact this⟩

/-- **C40** (loading a file).  `load_from` keeps all the non-empty n-grams if they fit in the pool, and throws otherwise. -/
theorem C40_load_from {V : Type} (numBytes extra : Nat) (ls : List (List Byte × V)) :
    ((ls.map (·.1.length)).sum ≤ numBytes →
      ∃ p, (Pool.new numBytes extra).loadFrom ls = some (.ok p) ∧ p.records = ls.filter (fun l => decide (l.1 ≠ []))) ∧
    (numBytes < (ls.map (·.1.length)).sum → (Pool.new numBytes extra).loadFrom ls = some (.error ())) := by
  have key : ∀ (ls : List (List Byte × V)) (p : Pool V) (held : List (List Byte × V)), p.Holds held →
      (p.bytes.length + (ls.map (·.1.length)).sum ≤ p.maxBytes →
        ∃ p', Pool.loadFrom.go p ls = some (.ok p') ∧ p'.records = held ++ ls.filter (fun l => decide (l.1 ≠ []))) ∧
      (p.maxBytes < p.bytes.length + (ls.map (·.1.length)).sum → Pool.loadFrom.go p ls = some (.error ())) := by
    intro ls
    induction ls with
    | nil =>
      intro p held h
      refine ⟨fun _ => ⟨p, rfl, by simpa using h.records⟩, fun hlt => ?_⟩
      have := h.max
      simp at hlt; omega
    | cons l ls ih =>
      intro p held h
      obtain ⟨a1, a2, a3⟩ := Pool.append_ok h l.1 l.2
      rw [List.map_cons, List.sum_cons]
      by_cases hg : l.1 = []
      · have := ih p held h
        rw [Pool.loadFrom.go, a1 hg, Option.bind_some, if_pos rfl, List.filter_cons_of_neg (by simpa using hg), hg, List.length_nil, Nat.zero_add]
        exact this
      · by_cases hle : p.bytes.length + l.1.length ≤ p.maxBytes
        · obtain ⟨q, b1, b2, b3⟩ := a2 hg hle
          have := ih q _ b3
          have hl := b3.len
          rw [List.map_append, List.sum_append, ← h.len] at hl
          simp only [List.map_cons, List.map_nil, List.sum_cons, List.sum_nil, Nat.add_zero] at hl
          rw [b2, hl] at this
          rw [Pool.loadFrom.go, b1, Option.bind_some, if_pos rfl, List.filter_cons_of_pos (by simpa using hg)]
          simp only [List.append_assoc, List.singleton_append, Nat.add_assoc] at this ⊢
          exact this
        · refine ⟨fun h' => by omega, fun _ => ?_⟩
          rw [Pool.loadFrom.go, a3 hg (by omega), Option.bind_some, if_neg (by simp)]
  have h0 := key ls _ [] (Pool.new_holds numBytes extra)
  have hb : (Pool.new numBytes extra : Pool V).bytes.length = 0 := rfl
  rw [hb, Nat.zero_add] at h0
  exact ⟨fun h => by obtain ⟨p, h1, h2⟩ := h0.1 h; exact ⟨p, h1, by simpa using h2⟩, h0.2⟩

/-- A pool of 3 bytes: "ab" is accepted, "cd" is refused, the empty n-gram ignored, "e" accepted. -/
example : Spec.pool 3 [] [.append [97#8, 98#8] 1, .append [99#8, 100#8] 2, .append [] 3, .append [101#8] 4] =
    ([true, false, true, true], [([97#8, 98#8], 1), ([101#8], 4)]) := by
  simp [Spec.pool]

end Tongrams
