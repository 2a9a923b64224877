import Verif.State

/-!
# Backoff scoring

Models `trie_prob_lm::score` (score.hpp:8-102) and `mph_prob_lm::score` (mph_prob_lm.hpp:190-259), which share one
control structure (vocabulary look-up, the loop that extends the match to the left, the loop that adds backoffs), and
the per-sentence loop of `score_corpus` (score.cpp:32-61).

Log-probabilities are an abstract type with an addition, a zero and the C++ test `if (backoff)`.
-/

set_option linter.unusedSectionVars false

namespace Tongrams

/-- What scoring uses of `float`: an addition, a zero, and the truth value `if (x)`.
The only law is that adding a value that tests false changes nothing (for IEEE floats: `x + 0.0 = x`, up to the sign
of a zero).  No associativity or commutativity is assumed. -/
class LogProb (F : Type) extends Add F, Zero F where
  nz : F → Bool
  nz_zero : nz 0 = false
  add_nz : ∀ x b : F, nz b = false → x + b = x

instance : LogProb Int where
  nz x := x != 0
  nz_zero := rfl
  add_nz x b h := by simp at h; simp [h]

/-- Specification: an ARPA model — a finite-order table giving to some n-grams (words oldest first) a probability and
a backoff, and a probability for unknown words. -/
structure Spec.Arpa (K F : Type) where
  order : Nat
  unk : F
  entry : List K → Option (F × F)

namespace Spec.Arpa
variable {K F : Type} [LogProb F]

/-- The backoff of a context: the one listed, 0 if the context is not listed. -/
def backoff (A : Arpa K F) (c : List K) : F := match A.entry c with | some (_, b) => b | none => 0

/-- The textbook recursion: the listed probability if the n-gram is listed, otherwise the score with the oldest
context word dropped plus the backoff of the full context. -/
def score (A : Arpa K F) : List K → K → F
  | [], w => match A.entry [w] with | some (p, _) => p | none => A.unk
  | c :: cs, w => match A.entry (c :: cs ++ [w]) with | some (p, _) => p | none => score A cs w + A.backoff (c :: cs)

/-- The last `n` items of a list. -/
def lastN (n : Nat) (l : List K) : List K := l.drop (l.length - n)

/-- Score of the `i`-th word `w` of a sentence: its context is the (at most) `order - 1` words before it. -/
def scoreAt (A : Arpa K F) (ws : List K) (i : Nat) (w : K) : F := A.score (lastN (A.order - 1) (ws.take i)) w

/-- Well-formed ARPA data: n-grams have between 1 and `order` words; removing the first word of a listed n-gram gives
a listed n-gram; removing the last word gives a listed context. -/
structure WellFormed (A : Arpa K F) : Prop where
  two_le : 2 ≤ A.order
  le_max : A.order ≤ maxOrder
  length : ∀ g, (A.entry g).isSome → 1 ≤ g.length ∧ g.length ≤ A.order
  tail : ∀ x g, (A.entry (x :: g)).isSome → g ≠ [] → (A.entry g).isSome
  context : ∀ g w, (A.entry (g ++ [w])).isSome → g ≠ [] → (A.entry g).isSome

/-- Every context of a listed n-gram has a non-zero backoff. -/
def NonZeroContexts (A : Arpa K F) : Prop :=
  ∀ g w, (A.entry (g ++ [w])).isSome → g ≠ [] → LogProb.nz (A.backoff g) = true

/-- The greatest `k ≤ n` such that the last `k` words of the text have a non-zero backoff, 0 if there is none
(`h`: the words of the text, most recent first). -/
def longestNZ (A : Arpa K F) (h : List K) : Nat → Nat
  | 0 => 0
  | n + 1 => if LogProb.nz (A.backoff (h.take (n + 1)).reverse) then n + 1 else longestNZ A h n

/-- How many words of context the released code keeps after the text `h` (most recent first): at most one more than it
kept before, less than the order of the model, and ending at a context of non-zero backoff. -/
def kept (A : Arpa K F) : List K → Nat
  | [] => 0
  | w :: h => longestNZ A (w :: h) (min (kept A h + 1) (A.order - 1))

end Spec.Arpa

/-- The model-specific parts of `score`.  `Wd` is the type of the words kept in the state, `C` what the loop carries
from one order to the next.
* `first k` : the vocabulary look-up of the word `k`; the word pushed on the state, and if the word is known its
  probability, backoff and the initial loop data;
* `next j c x` : the body of the loop for `order_m1 = j` and context word `x`: `none` inside = `break`; otherwise the
  probability, the backoff (read only if `order_m1 != order() - 1`) and the new loop data. -/
structure Scorer (K Wd F C : Type) where
  order : Nat
  unk : F
  first : K → Option (Wd × Option (F × F × C))
  next : Nat → C → Wd → Option (Option (F × Option F × C))

namespace Scorer
variable {K Wd F C : Type} [LogProb F]

/-- Local variables of `score` during STEP (1). -/
structure Loop (Wd F C : Type) where
  st : PState Wd F
  it : Nat
  cur : C
  prob : F
  longest : Nat
  orderM1 : Nat

/-- The `for (; order_m1 <= state.length; ++order_m1, ++words_rbegin)` loop (score.hpp:38-83, mph_prob_lm.hpp:211-241).
The first argument is `state.length + 1 - order_m1`, the number of iterations left. -/
def loop (S : Scorer K Wd F C) : Nat → Loop Wd F C → Option (Loop Wd F C)
  | 0, s => some s
  | n + 1, s => do
    let st := s.st.advance
    let x ← st.words.deref s.it
    match ← S.next s.orderM1 s.cur x with
    | none => some { s with st := st }
    | some (p, b, c) =>
      match b with
      | some b =>
        let st ← st.addBackoff b
        loop S n { st := st, it := st.words.rnext s.it, cur := c, prob := p,
                   longest := if LogProb.nz b then s.orderM1 + 1 else s.longest, orderM1 := s.orderM1 + 1 }
      | none =>
        loop S n { st := st, it := st.words.rnext s.it, cur := c, prob := p, longest := s.longest, orderM1 := s.orderM1 + 1 }

/-- STEP (2) (score.hpp:94-96, mph_prob_lm.hpp:251-253): `n` more iterations from `i`. -/
def addBackoffs (st : PState Wd F) : Nat → Nat → F → Option F
  | 0, _, prob => some prob
  | n + 1, i, prob => do
    let b ← st.backoff i
    addBackoffs st n (i + 1) (prob + b)

/-- `score` (score.hpp:8-102, mph_prob_lm.hpp:190-259): new state, score, and whether `is_OOV` was set.
The debug-only `assert(prob < 0.0)` is not modelled. -/
def score (S : Scorer K Wd F C) (st : PState Wd F) (k : K) : Option (PState Wd F × F × Bool) := do
  let (x, f) ← S.first k
  let st ← st.addWord x
  match f with
  | some (p, b, c) =>
    let st ← st.addBackoff b
    let it := st.words.rnext st.words.rbegin
    let l ← S.loop st.length { st := st, it := it, cur := c, prob := p, longest := if LogProb.nz b then 1 else 0, orderM1 := 1 }
    let prob ← addBackoffs l.st (l.st.length - (l.orderM1 - 1)) (l.orderM1 - 1) l.prob
    some ({ l.st with length := l.longest }.finalize, prob, false)
  | none =>
    let st ← { st with oovs := st.oovs + 1 }.addBackoff 0
    let prob ← addBackoffs st (st.length - 0) 0 S.unk
    some ({ st with length := 0 }.finalize, prob, true)

/-- Scoring the words of a sentence one after the other (score.cpp:40-53): final state, and the score and
`is_OOV` of each word. -/
def scoreWords (S : Scorer K Wd F C) : List K → PState Wd F → Option (PState Wd F × List (F × Bool))
  | [], st => some (st, [])
  | k :: ks, st => do
    let (st, p, o) ← S.score st k
    let (st, ps) ← scoreWords S ks st
    some (st, (p, o) :: ps)

/-- Scoring one sentence from a fresh state (README; score.cpp:31, 42-53): the score and `is_OOV` of each word.
`d` and `one` stand for what uninitialised memory and the constructor put in the state. -/
def scoreSentence (S : Scorer K Wd F C) (d : Wd) (one : F) (ws : List K) : Option (List (F × Bool)) := do
  let st ← PState.new S.order d one
  let (_, ps) ← S.scoreWords ws st
  some ps

end Scorer

/-- The running totals of `score_corpus` (score.cpp:26-29, 63): OOVs, sentences, words, `tot_log10_prob` and
`tot_log10_prob_only_OOVs`. -/
structure Totals (F : Type) where
  oovs : Nat
  sentences : Nat
  tokens : Nat
  total : F
  onlyOOVs : F

namespace Scorer
variable {K Wd F C : Type} [LogProb F]

/-- The loop over the words of one line (score.cpp:42-56): state, sum of the sentence, sum over OOV words so far. -/
def lineLoop (S : Scorer K Wd F C) : List K → PState Wd F → F → F → Option (PState Wd F × F × F)
  | [], st, sum, oov => some (st, sum, oov)
  | k :: ks, st, sum, oov => do
    let (st, p, o) ← S.score st k
    lineLoop S ks st (sum + p) (if o then oov + p else oov)

/-- `score_corpus` (score.cpp:35-66) on a corpus given as its lines of words; `num_words` is the number of words
returned by `next_word` (iterators.hpp:44-55).  Printing, timing and the two `pow` of the perplexity are left out. -/
def corpusLoop (S : Scorer K Wd F C) : List (List K) → PState Wd F → Totals F → Option (PState Wd F × Totals F)
  | [], st, t => some (st, t)
  | l :: ls, st, t => do
    let st ← st.init
    let (st, sum, oov) ← S.lineLoop l st 0 t.onlyOOVs
    corpusLoop S ls st ⟨t.oovs + st.oovs, t.sentences + 1, t.tokens + l.length, t.total + sum, oov⟩

/-- `score_corpus` from a fresh state (score.cpp:31, `model.state()` is `state_type(order())`, trie_prob_lm.hpp:227-229,
mph_prob_lm.hpp:186-188). -/
def scoreCorpus (S : Scorer K Wd F C) (d : Wd) (one : F) (text : List (List K)) : Option (Totals F) := do
  let st ← PState.new S.order d one
  let (_, t) ← S.corpusLoop text st ⟨0, 0, 0, 0, 0⟩
  some t

end Scorer

namespace Scorer
variable {K Wd F C : Type} [LogProb F]

/-- `S` looks up the n-grams of `A`, for grams satisfying `V` (a gram that can occur in the text being scored; given
as words most recent first).  `Cur g c`: `c` is the loop data after matching the words `g` (most recent first). -/
structure Implements (S : Scorer K Wd F C) (A : Spec.Arpa K F) (V : List K → Prop) (wd : K → Wd) where
  order : S.order = A.order
  unk : S.unk = A.unk
  Cur : List K → C → Prop
  first_some : ∀ k p b, V [k] → A.entry [k] = some (p, b) → ∃ c, S.first k = some (wd k, some (p, b, c)) ∧ Cur [k] c
  first_none : ∀ k, V [k] → A.entry [k] = none → S.first k = some (wd k, none)
  next_some : ∀ g x c p b, Cur g c → g ≠ [] → g.length < A.order → V (g ++ [x]) → (A.entry g.reverse).isSome →
    A.entry (x :: g.reverse) = some (p, b) →
    ∃ c', S.next g.length c (wd x) = some (some (p, if g.length = A.order - 1 then none else some b, c')) ∧
      Cur (g ++ [x]) c'
  next_none : ∀ g x c, Cur g c → g ≠ [] → g.length < A.order → V (g ++ [x]) → (A.entry g.reverse).isSome →
    (A.entry [x]).isSome → A.entry (x :: g.reverse) = none → S.next g.length c (wd x) = some none

variable {S : Scorer K Wd F C} {A : Spec.Arpa K F} {V : List K → Prop} {wd : K → Wd}

/-- Restriction to fewer n-grams. -/
def Implements.weaken (I : Implements S A V wd) {V' : List K → Prop} (h : ∀ g, V' g → V g) : Implements S A V' wd where
  order := I.order
  unk := I.unk
  Cur := I.Cur
  first_some k p b hV := I.first_some k p b (h _ hV)
  first_none k hV := I.first_none k (h _ hV)
  next_some g x c p b h1 h2 h3 hV := I.next_some g x c p b h1 h2 h3 (h _ hV)
  next_none g x c h1 h2 h3 hV := I.next_none g x c h1 h2 h3 (h _ hV)

/-- State invariant after scoring the words `h` (most recent first). -/
structure Inv (A : Spec.Arpa K F) (wd : K → Wd) (st : PState Wd F) (h : List K) : Prop where
  words : st.words.Has (h.map wd)
  cap : st.words.capacity = A.order
  pos : st.pos = 0
  curr : st.curr.length = maxOrder
  prev : st.prev.length = maxOrder
  len_lt : st.length < A.order
  len_le : st.length ≤ h.length
  back : ∀ i, i < st.length → ∃ p b, A.entry (h.take (i + 1)).reverse = some (p, b) ∧ st.prev[i]? = some (some b)
  len : st.length = A.kept h

/-- Loop invariant: `g = h'.take j` matched, where `h'` is the history including the current word. -/
structure LInv (A : Spec.Arpa K F) (wd : K → Wd) (I : Implements S A V wd) (st0 : PState Wd F) (h' : List K)
    (l : Loop Wd F C) : Prop where
  words : l.st.words = st0.words
  prev : l.st.prev = st0.prev
  length : l.st.length = st0.length
  oovs : l.st.oovs = st0.oovs
  curr : l.st.curr.length = maxOrder
  pos : l.st.pos + 1 = l.orderM1
  it : l.it = l.st.words.rnext^[l.orderM1] l.st.words.rbegin
  jle : l.orderM1 ≤ h'.length
  jlo : l.orderM1 ≤ A.order
  jl : l.orderM1 ≤ st0.length + 1
  match_ : ∃ b, A.entry (h'.take l.orderM1).reverse = some (l.prob, b)
  cur : I.Cur (h'.take l.orderM1) l.cur
  back : ∀ i, i < l.orderM1 → i + 1 < A.order →
    ∃ p b, A.entry (h'.take (i + 1)).reverse = some (p, b) ∧ l.st.curr[i]? = some (some b)
  longest_le : l.longest ≤ l.orderM1
  longest_lt : l.longest < A.order
  maxi : ∀ k, l.longest < k → k < A.order → k ≤ l.orderM1 → LogProb.nz (A.backoff (h'.take k).reverse) = false
  nzl : 0 < l.longest → LogProb.nz (A.backoff (h'.take l.longest).reverse) = true

/-- Listed n-grams: every suffix of a listed n-gram is listed (`g` most recent first). -/
theorem entry_take (wf : A.WellFormed) {g : List K} (h : (A.entry g.reverse).isSome) {k : Nat} (hk : 1 ≤ k)
    (hkl : k ≤ g.length) : (A.entry (g.take k).reverse).isSome := by
  obtain ⟨d, hd⟩ := Nat.le.dest hkl
  induction d generalizing g with
  | zero => rw [List.take_of_length_le (by omega)]; exact h
  | succ d ih =>
    have hne : g ≠ [] := by rintro rfl; simp at hd
    have e : g = g.dropLast ++ [g.getLast hne] := (List.dropLast_concat_getLast hne).symm
    have hl : g.dropLast.length = g.length - 1 := List.length_dropLast
    have h2 : (A.entry g.dropLast.reverse).isSome := by
      rw [e, List.reverse_append] at h
      refine wf.tail _ _ h ?_
      intro hr
      have : g.dropLast.length = 0 := by simpa using congrArg List.length hr
      omega
    have := ih h2 (by omega) (by omega)
    rwa [List.dropLast_eq_take, List.take_take, Nat.min_eq_left (by omega)] at this

/-- Nothing longer is listed once an order is not. -/
theorem entry_take_none (wf : A.WellFormed) {g : List K} {k k' : Nat} (hk : 1 ≤ k) (hkk : k ≤ k') (hkl : k' ≤ g.length)
    (h : A.entry (g.take k).reverse = none) : A.entry (g.take k').reverse = none := by
  by_contra hc
  have h1 : (A.entry (g.take k').reverse).isSome := Option.isSome_iff_ne_none.mpr hc
  have := entry_take wf h1 hk (by rw [List.length_take]; omega)
  rw [List.take_take, Nat.min_eq_left hkk, h] at this
  simp at this

/-- If an n-gram is listed, its first word is in the vocabulary. -/
theorem entry_head (wf : A.WellFormed) {x : K} {g : List K} (h : (A.entry (x :: g)).isSome) : (A.entry [x]).isSome := by
  obtain ⟨n, hn⟩ : ∃ n, g.length = n := ⟨_, rfl⟩
  induction n generalizing g with
  | zero => rw [List.length_eq_zero_iff.mp hn] at h; exact h
  | succ n ih =>
    have hne : g ≠ [] := by rintro rfl; simp at hn
    rw [← List.dropLast_concat_getLast hne, ← List.cons_append] at h
    exact ih (g := g.dropLast) (wf.context _ _ h (by simp)) (by rw [List.length_dropLast]; omega)

/-- The loop ends with the longest match. -/
theorem loop_spec (I : Implements S A V wd) (wf : A.WellFormed) {st0 : PState Wd F} {h' : List K}
    (hw : st0.words.Has (h'.map wd)) (hcap : st0.words.capacity = A.order)
    (hV : ∀ k, k ≤ h'.length → 1 ≤ k → V (h'.take k))
    (hlen : st0.length < A.order) (hlh : st0.length + 1 ≤ h'.length)
    (hctx : ∀ i, i < st0.length → (A.entry ((h'.drop 1).take (i + 1)).reverse).isSome)
    (n : Nat) (l : Loop Wd F C) (hl : LInv A wd I st0 h' l) (hn : n = st0.length + 1 - l.orderM1) :
    ∃ l', S.loop n l = some l' ∧
      l'.st.words = st0.words ∧ l'.st.prev = st0.prev ∧ l'.st.length = st0.length ∧ l'.st.oovs = st0.oovs ∧
      l'.st.curr.length = maxOrder ∧
      1 ≤ l'.orderM1 ∧ l'.orderM1 ≤ st0.length + 1 ∧
      (∃ b, A.entry (h'.take l'.orderM1).reverse = some (l'.prob, b)) ∧
      (l'.orderM1 < st0.length + 1 → A.entry (h'.take (l'.orderM1 + 1)).reverse = none) ∧
      (∀ i, i < l'.orderM1 → i + 1 < A.order →
        ∃ p b, A.entry (h'.take (i + 1)).reverse = some (p, b) ∧ l'.st.curr[i]? = some (some b)) ∧
      l'.longest ≤ l'.orderM1 ∧ l'.longest < A.order ∧
      (∀ k, l'.longest < k → k < A.order → k ≤ l'.orderM1 → LogProb.nz (A.backoff (h'.take k).reverse) = false) ∧
      (0 < l'.longest → LogProb.nz (A.backoff (h'.take l'.longest).reverse) = true) := by
  induction n generalizing l with
  | zero =>
    refine ⟨l, rfl, hl.words, hl.prev, hl.length, hl.oovs, hl.curr, ?_, hl.jl, hl.match_, ?_, hl.back, hl.longest_le,
      hl.longest_lt, hl.maxi, hl.nzl⟩
    · have := hl.pos; omega
    · intro h; omega
  | succ n ih =>
    have hpos := hl.pos
    have hj : l.orderM1 ≤ st0.length := by omega
    have hjh : l.orderM1 < h'.length := by omega
    -- the context word
    have hx : (h'.map wd)[l.orderM1]? = some (wd h'[l.orderM1]) := by
      rw [List.getElem?_map, List.getElem?_eq_getElem hjh]; rfl
    have hder : l.st.advance.words.deref l.it = some (wd h'[l.orderM1]) := by
      have := hw.rget (k := l.orderM1) (by omega) hx
      rw [CircBuf.rget] at this
      show l.st.words.deref l.it = _
      rw [hl.it, hl.words]; exact this
    have htk : h'.take (l.orderM1 + 1) = h'.take l.orderM1 ++ [h'[l.orderM1]] := by
      rw [List.take_add_one, List.getElem?_eq_getElem hjh]; rfl
    have hgl : (h'.take l.orderM1).length = l.orderM1 := by rw [List.length_take]; omega
    have hgne : h'.take l.orderM1 ≠ [] := by
      intro e; have := congrArg List.length e; rw [hgl] at this; simp at this; omega
    have hVx : V (h'.take l.orderM1 ++ [h'[l.orderM1]]) := by rw [← htk]; exact hV _ (by omega) (by omega)
    obtain ⟨b0, hm⟩ := hl.match_
    have hms : (A.entry (h'.take l.orderM1).reverse).isSome := by rw [hm]; rfl
    have hrev : (h'.take (l.orderM1 + 1)).reverse = h'[l.orderM1] :: (h'.take l.orderM1).reverse := by
      rw [htk, List.reverse_append]; rfl
    rw [loop]
    simp only [hder, Option.bind_eq_bind, Option.bind_some]
    cases he : A.entry (h'[l.orderM1] :: (h'.take l.orderM1).reverse) with
    | none =>
      have hvx : (A.entry [h'[l.orderM1]]).isSome := by
        have h1 := hctx (l.orderM1 - 1) (by omega)
        rw [show l.orderM1 - 1 + 1 = l.orderM1 by omega] at h1
        have h2 : (h'.drop 1).take l.orderM1 = (h'.drop 1).take (l.orderM1 - 1) ++ [h'[l.orderM1]] := by
          obtain ⟨m, hm2⟩ : ∃ m, l.orderM1 = m + 1 := ⟨l.orderM1 - 1, by omega⟩
          have e2 : (h'.drop 1)[m]? = some h'[l.orderM1] := by
            rw [List.getElem?_drop, List.getElem?_eq_getElem (by omega)]
            simp only [hm2, Nat.add_comm]
          rw [show l.orderM1 - 1 = m by omega]
          conv_lhs => rw [hm2]
          rw [List.take_add_one, e2]; rfl
        rw [h2, List.reverse_append] at h1
        exact entry_head wf h1
      have hnx := I.next_none _ _ _ hl.cur hgne (by omega) hVx hms hvx he
      rw [hgl] at hnx
      rw [hnx]
      refine ⟨{ l with st := l.st.advance }, rfl, hl.words, hl.prev, hl.length, hl.oovs, hl.curr, ?_, hl.jl, ⟨b0, hm⟩, ?_,
        hl.back, hl.longest_le, hl.longest_lt, hl.maxi, hl.nzl⟩
      · show 1 ≤ l.orderM1; omega
      · intro _; show A.entry (h'.take (l.orderM1 + 1)).reverse = none
        rw [hrev]; exact he
    | some pb =>
      obtain ⟨p, b⟩ := pb
      obtain ⟨c', hnx, hcur⟩ := I.next_some _ _ _ p b hl.cur hgne (by omega) hVx hms he
      rw [hgl] at hnx
      rw [hnx]
      simp only [Option.bind_some]
      have hbk : A.backoff (h'.take (l.orderM1 + 1)).reverse = b := by
        rw [hrev, Spec.Arpa.backoff, he]
      have hjo : l.orderM1 < A.order := by omega
      by_cases hlast : l.orderM1 = A.order - 1
      · rw [if_pos hlast]
        apply ih
        · refine ⟨hl.words, hl.prev, hl.length, hl.oovs, hl.curr, ?_, ?_, ?_, ?_, ?_, ⟨b, ?_⟩, ?_, ?_, ?_, hl.longest_lt, ?_, hl.nzl⟩
          · show l.st.pos + 1 + 1 = l.orderM1 + 1; omega
          · show l.st.words.rnext l.it = l.st.words.rnext^[l.orderM1 + 1] l.st.words.rbegin
            rw [Function.iterate_succ_apply', ← hl.it]
          · show l.orderM1 + 1 ≤ _; omega
          · show l.orderM1 + 1 ≤ _; omega
          · show l.orderM1 + 1 ≤ _; omega
          · show A.entry (h'.take (l.orderM1 + 1)).reverse = _
            rw [hrev]; exact he
          · show I.Cur (h'.take (l.orderM1 + 1)) c'
            rw [htk]; exact hcur
          · intro i hi hio
            change i < l.orderM1 + 1 at hi
            exact hl.back i (by omega) hio
          · have := hl.longest_le; show l.longest ≤ l.orderM1 + 1; omega
          · intro k h1 h2 h3
            change k ≤ l.orderM1 + 1 at h3
            exact hl.maxi k h1 h2 (by omega)
        · show n = st0.length + 1 - (l.orderM1 + 1); omega
      · rw [if_neg hlast]
        have hpl : l.st.advance.pos < l.st.advance.curr.length := by
          show l.st.pos + 1 < l.st.curr.length
          rw [hl.curr]; have := wf.le_max; omega
        have hab : l.st.advance.addBackoff b =
            some { l.st.advance with curr := l.st.advance.curr.set l.st.advance.pos (some b) } := if_pos hpl
        simp only [hab, Option.bind_some]
        apply ih
        · refine ⟨hl.words, hl.prev, hl.length, hl.oovs, ?_, ?_, ?_, ?_, ?_, ?_, ⟨b, ?_⟩, ?_, ?_, ?_, ?_, ?_, ?_⟩
          · show (l.st.curr.set _ _).length = _; rw [List.length_set]; exact hl.curr
          · show l.st.pos + 1 + 1 = l.orderM1 + 1; omega
          · show l.st.words.rnext l.it = l.st.words.rnext^[l.orderM1 + 1] l.st.words.rbegin
            rw [Function.iterate_succ_apply', ← hl.it]
          · show l.orderM1 + 1 ≤ _; omega
          · show l.orderM1 + 1 ≤ _; omega
          · show l.orderM1 + 1 ≤ _; omega
          · show A.entry (h'.take (l.orderM1 + 1)).reverse = _
            rw [hrev]; exact he
          · show I.Cur (h'.take (l.orderM1 + 1)) c'
            rw [htk]; exact hcur
          · intro i hi hio
            change i < l.orderM1 + 1 at hi
            show ∃ p b', A.entry (h'.take (i + 1)).reverse = some (p, b') ∧
              (l.st.curr.set (l.st.pos + 1) (some b))[i]? = some (some b')
            by_cases hie : i = l.orderM1
            · subst hie
              refine ⟨p, b, by rw [hrev]; exact he, ?_⟩
              rw [hpos, List.getElem?_set_self (by rw [hl.curr]; have := wf.le_max; omega)]
            · obtain ⟨p', b', e1, e2⟩ := hl.back i (by omega) hio
              exact ⟨p', b', e1, by rw [List.getElem?_set_ne (by omega), e2]⟩
          · show (if LogProb.nz b then l.orderM1 + 1 else l.longest) ≤ l.orderM1 + 1
            have := hl.longest_le
            split <;> omega
          · show (if LogProb.nz b then l.orderM1 + 1 else l.longest) < A.order
            have := hl.longest_lt
            split <;> omega
          · intro k h1 h2 h3
            change k ≤ l.orderM1 + 1 at h3
            change (if LogProb.nz b then l.orderM1 + 1 else l.longest) < k at h1
            by_cases hb : LogProb.nz b = true
            · rw [if_pos hb] at h1; omega
            · rw [if_neg hb] at h1
              by_cases hk : k = l.orderM1 + 1
              · subst hk; rw [hbk]; simpa using hb
              · exact hl.maxi k h1 h2 (by omega)
          · show 0 < (if LogProb.nz b then l.orderM1 + 1 else l.longest) →
              LogProb.nz (A.backoff (h'.take (if LogProb.nz b then l.orderM1 + 1 else l.longest)).reverse) = true
            by_cases hb : LogProb.nz b = true
            · rw [if_pos hb, hbk]; exact fun _ => hb
            · rw [if_neg hb]; exact hl.nzl
        · show n = st0.length + 1 - (l.orderM1 + 1); omega

/-- STEP (2) adds the backoffs of the contexts of lengths `i + 1 .. i + n`, shortest first. -/
theorem addBackoffs_spec {A : Spec.Arpa K F} {st : PState Wd F} {h : List K} {L : Nat}
    (hb : ∀ i, i < L → ∃ p b, A.entry (h.take (i + 1)).reverse = some (p, b) ∧ st.prev[i]? = some (some b)) (n i : Nat) (prob : F)
    (hn : i + n ≤ L) :
    addBackoffs st n i prob =
      some ((List.range' i n).foldl (fun acc i => acc + A.backoff (h.take (i + 1)).reverse) prob) := by
  induction n generalizing i prob with
  | zero => rfl
  | succ n ih =>
    obtain ⟨p, b, e1, e2⟩ := hb i (by omega)
    have e3 : st.backoff i = some b := by rw [PState.backoff, e2]; rfl
    rw [addBackoffs]
    simp only [e3, Option.bind_eq_bind, Option.bind_some]
    rw [ih _ _ (by omega), List.range'_succ, List.foldl_cons]
    have : A.backoff (h.take (i + 1)).reverse = b := by rw [Spec.Arpa.backoff, e1]
    rw [this]

/-- The textbook recursion, unrolled: if the longest listed n-gram is found with `m` context words, the score is its
probability plus the backoffs of the longer contexts, shortest first. -/
theorem score_unroll {A : Spec.Arpa K F} {h : List K} {w : K} {m c : Nat} (hmc : m ≤ c) (hc : c ≤ h.length)
    (hno : ∀ k, m < k → k ≤ c → A.entry ((h.take k).reverse ++ [w]) = none) :
    A.score (h.take c).reverse w =
      (List.range' m (c - m)).foldl (fun acc i => acc + A.backoff (h.take (i + 1)).reverse) (A.score (h.take m).reverse w) := by
  obtain ⟨d, rfl⟩ := Nat.le.dest hmc
  induction d with
  | zero => simp
  | succ d ih =>
    have hlt : m + d < h.length := by omega
    have e : (h.take (m + d + 1)).reverse = h[m + d] :: (h.take (m + d)).reverse := by
      rw [List.take_add_one, List.getElem?_eq_getElem hlt, List.reverse_append]; rfl
    have hn := hno (m + d + 1) (by omega) (by omega)
    rw [e] at hn
    have hh : A.score (h.take (m + d + 1)).reverse w =
        A.score (h.take (m + d)).reverse w + A.backoff (h.take (m + d + 1)).reverse := by
      rw [e, Spec.Arpa.score, hn]
    rw [← Nat.add_assoc, hh, ih (by omega) (by omega) (fun k h1 h2 => hno k h1 (by omega)),
      show m + d + 1 - m = (m + d - m) + 1 by omega, List.range'_1_concat, List.foldl_append]
    simp only [List.foldl_cons, List.foldl_nil]
    rw [show m + (m + d - m) = m + d by omega]

theorem longestNZ_eq {A : Spec.Arpa K F} {h : List K} {n L : Nat} (hL : L ≤ n)
    (h1 : 0 < L → LogProb.nz (A.backoff (h.take L).reverse) = true)
    (h2 : ∀ k, L < k → k ≤ n → LogProb.nz (A.backoff (h.take k).reverse) = false) : A.longestNZ h n = L := by
  induction n with
  | zero => rw [Spec.Arpa.longestNZ]; omega
  | succ n ih =>
    rw [Spec.Arpa.longestNZ]
    by_cases he : L = n + 1
    · subst he; rw [if_pos (h1 (by omega))]
    · rw [if_neg (by rw [h2 (n + 1) (by omega) (Nat.le_refl _)]; simp)]
      exact ih (by omega) (fun k a b => h2 k a (by omega))

theorem longestNZ_spec (A : Spec.Arpa K F) (h : List K) (n : Nat) : A.longestNZ h n ≤ n ∧
    (0 < A.longestNZ h n → LogProb.nz (A.backoff (h.take (A.longestNZ h n)).reverse) = true) ∧
    (∀ k, A.longestNZ h n < k → k ≤ n → LogProb.nz (A.backoff (h.take k).reverse) = false) := by
  induction n with
  | zero => simp [Spec.Arpa.longestNZ]; intro k a b; omega
  | succ n ih =>
    rw [Spec.Arpa.longestNZ]
    by_cases he : LogProb.nz (A.backoff (h.take (n + 1)).reverse) = true
    · rw [if_pos he]
      exact ⟨Nat.le_refl _, fun _ => he, fun k a b => by omega⟩
    · rw [if_neg he]
      refine ⟨by omega, ih.2.1, fun k a b => ?_⟩
      by_cases hk : k = n + 1
      · subst hk; simpa using he
      · exact ih.2.2 k a (by omega)

theorem foldl_zero {A : Spec.Arpa K F} {h : List K} (n i : Nat) (x : F)
    (hz : ∀ k, i ≤ k → k < i + n → LogProb.nz (A.backoff (h.take (k + 1)).reverse) = false) :
    (List.range' i n).foldl (fun acc i => acc + A.backoff (h.take (i + 1)).reverse) x = x := by
  induction n generalizing i x with
  | zero => rfl
  | succ n ih =>
    rw [List.range'_succ, List.foldl_cons, LogProb.add_nz _ _ (hz i (by omega) (by omega))]
    exact ih _ _ (fun k h1 h2 => hz k (by omega) (by omega))

/-- One call of `score`. -/
theorem score_spec (I : Implements S A V wd) (wf : A.WellFormed) {st : PState Wd F} {h : List K} (inv : Inv A wd st h) (w : K)
    (hV : ∀ k, 1 ≤ k → k ≤ h.length + 1 → V ((w :: h).take k)) :
    ∃ st', S.score st w = some (st', A.score (h.take (A.kept h)).reverse w, (A.entry [w]).isNone) ∧
      Inv A wd st' (w :: h) ∧ st'.oovs = st.oovs + (if (A.entry [w]).isNone then 1 else 0) := by
  have h2 := wf.two_le
  have h8 := wf.le_max
  obtain ⟨ws, hpush, hws, hwcap⟩ := inv.words.push (wd w)
  have hV1 : V [w] := by simpa using hV 1 (by omega) (by omega)
  have hadd : st.addWord (wd w) = some { st with words := ws } := by rw [PState.addWord, hpush]; rfl
  have hLo := inv.len_lt
  have hLh := inv.len_le
  have hLk := inv.len
  cases he : A.entry [w] with
  | none =>
    have hf := I.first_none w hV1 he
    have hnone : ∀ k, A.entry ((h.take k).reverse ++ [w]) = none := by
      intro k
      by_contra hc
      have h1 : (A.entry (w :: (h.take k)).reverse).isSome := by
        rw [List.reverse_cons]; exact Option.isSome_iff_ne_none.mpr hc
      have := entry_take wf h1 (k := 1) (by omega) (by simp)
      simp [he] at this
    rw [Scorer.score]
    simp only [hf, hadd, Option.bind_eq_bind, Option.bind_some]
    have hab : ({ st with words := ws, oovs := st.oovs + 1 } : PState Wd F).addBackoff 0 =
        some { st with words := ws, oovs := st.oovs + 1, curr := st.curr.set 0 (some 0) } := by
      rw [PState.addBackoff]
      rw [if_pos (by show st.pos < st.curr.length; rw [inv.pos, inv.curr]; decide)]
      simp only [inv.pos]
    simp only [hab, Option.bind_some]
    have hsum := addBackoffs_spec (A := A) (st := { st with words := ws, oovs := st.oovs + 1, curr := st.curr.set 0 (some 0) })
      (h := h) (L := st.length) inv.back (st.length - 0) 0 S.unk (by omega)
    have hsc : A.score (h.take (A.kept h)).reverse w =
        (List.range' 0 (st.length - 0)).foldl (fun acc i => acc + A.backoff (h.take (i + 1)).reverse) S.unk := by
      rw [← hLk, score_unroll (m := 0) (Nat.zero_le _) (by omega) (fun k _ _ => hnone k)]
      simp [Spec.Arpa.score, he, I.unk]
    refine ⟨PState.finalize { st with words := ws, oovs := st.oovs + 1, curr := st.curr.set 0 (some 0), length := 0 },
      ?_, ?_, ?_⟩
    · rw [hsum, hsc]; rfl
    · refine ⟨hws, by rw [← inv.cap]; exact hwcap, rfl, inv.prev, ?_, ?_, Nat.zero_le _, ?_, ?_⟩
      · show (st.curr.set 0 _).length = _
        rw [List.length_set]; exact inv.curr
      · show 0 < A.order; omega
      · intro i hi; exact absurd hi (Nat.not_lt_zero _)
      · show 0 = A.kept (w :: h)
        rw [Spec.Arpa.kept]
        refine (longestNZ_eq (Nat.zero_le _) (fun h => absurd h (Nat.lt_irrefl _)) ?_).symm
        intro k h1 h3
        have : A.entry ((w :: h).take k).reverse = none := by
          obtain ⟨k', rfl⟩ : ∃ k', k = k' + 1 := ⟨k - 1, by omega⟩
          rw [List.take_succ_cons, List.reverse_cons]; exact hnone k'
        rw [Spec.Arpa.backoff, this]; exact LogProb.nz_zero
    · simp [PState.finalize]
  | some pb =>
    obtain ⟨p, b⟩ := pb
    obtain ⟨c, hf, hcur⟩ := I.first_some w p b hV1 he
    rw [Scorer.score]
    simp only [hf, hadd, Option.bind_eq_bind, Option.bind_some]
    have hab : ({ st with words := ws } : PState Wd F).addBackoff b =
        some { st with words := ws, curr := st.curr.set 0 (some b) } := by
      rw [PState.addBackoff]
      rw [if_pos (by show st.pos < st.curr.length; rw [inv.pos, inv.curr]; decide)]
      simp only [inv.pos]
    simp only [hab, Option.bind_some]
    have hctx : ∀ i, i < st.length → (A.entry (((w :: h).drop 1).take (i + 1)).reverse).isSome := by
      intro i hi
      obtain ⟨p, b, e, -⟩ := inv.back i hi
      show (A.entry (h.take (i + 1)).reverse).isSome
      rw [e]; rfl
    have hbw : A.backoff ((w :: h).take 1).reverse = b := by
      show A.backoff [w] = b
      rw [Spec.Arpa.backoff, he]
    obtain ⟨l', hloop, e1, e2, e3, e4, e5, e6, e7, ⟨bm, e8⟩, e9, e10, e11, e12, e13, e14⟩ :=
      loop_spec (st0 := { st with words := ws, curr := st.curr.set 0 (some b) }) (h' := w :: h) I wf
        (by simpa using hws) (by rw [← inv.cap]; exact hwcap)
        (fun k h1 h3 => hV k h3 (by simpa using h1)) hLo (by show st.length + 1 ≤ h.length + 1; omega) hctx st.length
        { st := { st with words := ws, curr := st.curr.set 0 (some b) }, it := ws.rnext ws.rbegin, cur := c, prob := p,
          longest := if LogProb.nz b then 1 else 0, orderM1 := 1 }
        (by
          refine ⟨rfl, rfl, rfl, rfl, ?_, ?_, rfl, ?_, ?_, ?_, ⟨b, he⟩, hcur, ?_, ?_, ?_, ?_, ?_⟩
          · show (st.curr.set 0 _).length = _
            rw [List.length_set]; exact inv.curr
          · show st.pos + 1 = 1
            rw [inv.pos]
          · show 1 ≤ h.length + 1; omega
          · show 1 ≤ A.order; omega
          · show 1 ≤ st.length + 1; omega
          · intro i hi _
            change i < 1 at hi
            obtain rfl : i = 0 := by omega
            refine ⟨p, b, he, ?_⟩
            show (st.curr.set 0 (some b))[0]? = _
            rw [List.getElem?_set_self (by rw [inv.curr]; decide)]
          · show (if LogProb.nz b then 1 else 0) ≤ 1; split <;> omega
          · show (if LogProb.nz b then 1 else 0) < A.order; split <;> omega
          · intro k h1 h3 h4
            change (if LogProb.nz b then 1 else 0) < k at h1
            change k ≤ 1 at h4
            by_cases hb : LogProb.nz b = true
            · rw [if_pos hb] at h1; omega
            · rw [if_neg hb] at h1
              obtain rfl : k = 1 := by omega
              rw [hbw]; simpa using hb
          · show 0 < (if LogProb.nz b then 1 else 0) →
              LogProb.nz (A.backoff ((w :: h).take (if LogProb.nz b then 1 else 0)).reverse) = true
            by_cases hb : LogProb.nz b = true
            · rw [if_pos hb, hbw]; exact fun _ => hb
            · rw [if_neg hb]; exact fun h => absurd h (Nat.lt_irrefl _))
        (by show st.length = st.length + 1 - 1; omega)
    change l'.st.length = st.length at e3
    change l'.orderM1 ≤ st.length + 1 at e7
    change l'.st.oovs = st.oovs at e4
    obtain ⟨m, hm⟩ : ∃ m, l'.orderM1 = m + 1 := ⟨l'.orderM1 - 1, by omega⟩
    have hsum := addBackoffs_spec (A := A) (st := l'.st) (h := h) (L := st.length)
      (by rw [e2]; exact inv.back) (l'.st.length - (l'.orderM1 - 1)) (l'.orderM1 - 1) l'.prob (by omega)
    have hnone : ∀ k, m < k → k ≤ st.length → A.entry ((h.take k).reverse ++ [w]) = none := by
      intro k h1 h3
      have := e9 (by show l'.orderM1 < st.length + 1; omega)
      have := entry_take_none wf (k' := k + 1) (by omega) (by omega) (by simp; omega) this
      rwa [List.take_succ_cons, List.reverse_cons] at this
    have hsm : A.score (h.take m).reverse w = l'.prob := by
      rw [hm, List.take_succ_cons, List.reverse_cons] at e8
      cases hr : (h.take m).reverse with
      | nil => rw [hr] at e8; simp only [List.nil_append] at e8; rw [Spec.Arpa.score, e8]
      | cons y ys => rw [hr] at e8; rw [Spec.Arpa.score, e8]
    have hsc : A.score (h.take (A.kept h)).reverse w =
        (List.range' m (st.length - m)).foldl (fun acc i => acc + A.backoff (h.take (i + 1)).reverse) l'.prob := by
      rw [← hLk, score_unroll (m := m) (by omega) (by omega) hnone, hsm]
    refine ⟨PState.finalize { l'.st with length := l'.longest }, ?_, ?_, ?_⟩
    · rw [hloop]
      simp only [Option.bind_some]
      rw [hsum, hsc, e3, hm]
      rfl
    · refine ⟨?_, ?_, rfl, ?_, e5, e12, ?_, ?_, ?_⟩
      · show l'.st.words.Has _
        rw [e1]; exact hws
      · show l'.st.words.capacity = _
        rw [e1, ← inv.cap]; exact hwcap
      · show l'.st.prev.length = _
        rw [e2]; exact inv.prev
      · show l'.longest ≤ h.length + 1; omega
      · intro i hi
        change i < l'.longest at hi
        exact e10 i (by omega) (by omega)
      · show l'.longest = A.kept (w :: h)
        rw [Spec.Arpa.kept, ← hLk]
        refine (longestNZ_eq (by omega) e14 ?_).symm
        intro k h1 h3
        by_cases hk : k ≤ l'.orderM1
        · exact e13 k h1 (by omega) hk
        · have : A.entry ((w :: h).take k).reverse = none := by
            obtain ⟨k', rfl⟩ : ∃ k', k = k' + 1 := ⟨k - 1, by omega⟩
            rw [List.take_succ_cons, List.reverse_cons]
            exact hnone k' (by omega) (by omega)
          rw [Spec.Arpa.backoff, this]; exact LogProb.nz_zero
    · simp [PState.finalize, e4]

/-- With non-zero contexts nothing is lost by keeping only `kept` words of context. -/
theorem kept_max (nzc : A.NonZeroContexts) (h : List K) :
    ∀ k, A.kept h < k → k < A.order → k ≤ h.length → LogProb.nz (A.backoff (h.take k).reverse) = false := by
  induction h with
  | nil => intro k h1 _ h3; simp at h3; omega
  | cons w h ih =>
    intro k h1 h2 h3
    rw [Spec.Arpa.kept] at h1
    obtain ⟨a1, a2, a3⟩ := longestNZ_spec A (w :: h) (min (A.kept h + 1) (A.order - 1))
    by_cases hk : k ≤ A.kept h + 1
    · exact a3 k h1 (by omega)
    · by_contra hc
      obtain ⟨k', rfl⟩ : ∃ k', k = k' + 1 := ⟨k - 1, by omega⟩
      rw [List.take_succ_cons, List.reverse_cons] at hc
      have hs : (A.entry ((h.take k').reverse ++ [w])).isSome := by
        cases he : A.entry ((h.take k').reverse ++ [w]) with
        | some _ => rfl
        | none => rw [Spec.Arpa.backoff, he] at hc; exact absurd LogProb.nz_zero hc
      have hne : (h.take k').reverse ≠ [] := by
        intro e
        have := congrArg List.length e
        simp only [List.length_reverse, List.length_take, List.length_nil, List.length_cons] at this h3
        omega
      have := nzc _ _ hs hne
      rw [ih k' (by omega) (by omega) (by simp at h3; omega)] at this
      simp at this

theorem kept_le (A : Spec.Arpa K F) (h : List K) : A.kept h ≤ h.length ∧ A.kept h ≤ A.order - 1 := by
  induction h with
  | nil => simp [Spec.Arpa.kept]
  | cons w h ih =>
    have := (longestNZ_spec A (w :: h) (min (A.kept h + 1) (A.order - 1))).1
    rw [Spec.Arpa.kept, List.length_cons]
    omega

theorem score_kept (wf : A.WellFormed) (nzc : A.NonZeroContexts) (h : List K) (w : K) :
    A.score (h.take (A.kept h)).reverse w = A.score (h.take (A.order - 1)).reverse w := by
  obtain ⟨k1, k2⟩ := kept_le A h
  have h2 := wf.two_le
  have htk : h.take (A.order - 1) = h.take (min (A.order - 1) h.length) := by
    by_cases hh : A.order - 1 ≤ h.length
    · rw [Nat.min_eq_left hh]
    · rw [Nat.min_eq_right (by omega), List.take_of_length_le (by omega), List.take_of_length_le (by omega)]
  have hm := kept_max nzc h
  rw [htk, score_unroll (m := A.kept h) (c := min (A.order - 1) h.length) (by omega) (by omega)]
  · rw [foldl_zero]
    intro k h1 h3
    exact hm (k + 1) (by omega) (by omega) (by omega)
  · intro k h1 h3
    by_contra hc
    have hne : (h.take k).reverse ≠ [] := by
      intro e
      have := congrArg List.length e
      simp only [List.length_reverse, List.length_take, List.length_nil] at this
      omega
    have := nzc _ _ (Option.isSome_iff_ne_none.mpr hc) hne
    rw [hm k h1 (by omega) (by omega)] at this
    simp at this

/-- The words of a sentence scored one after the other. -/
theorem scoreWords_spec (I : Implements S A V wd) (wf : A.WellFormed) (ws : List K) {st : PState Wd F} {h : List K}
    (inv : Inv A wd st h) (hV : ∀ i k, i < ws.length → 1 ≤ k → V (((ws.take (i + 1)).reverse ++ h).take k)) :
    ∃ st' ps, S.scoreWords ws st = some (st', ps) ∧ Inv A wd st' (ws.reverse ++ h) ∧ ps.length = ws.length ∧
      st'.oovs = st.oovs + ws.countP (fun w => (A.entry [w]).isNone) ∧
      ∀ i w, ws[i]? = some w → ps[i]? =
        some (A.score (((ws.take i).reverse ++ h).take (A.kept ((ws.take i).reverse ++ h))).reverse w, (A.entry [w]).isNone) := by
  induction ws generalizing st h with
  | nil => exact ⟨st, [], rfl, inv, rfl, rfl, fun i w hw => by simp at hw⟩
  | cons k ks ih =>
    obtain ⟨st1, e1, inv1, o1⟩ := score_spec I wf inv k (fun j h1 h2 => by simpa using hV 0 j (by simp) h1)
    obtain ⟨st2, ps, e2, inv2, l2, o2, g2⟩ := ih inv1 (fun i j hi hj => by
      have := hV (i + 1) j (by simpa using hi) hj
      rw [List.take_succ_cons, List.reverse_cons, List.append_assoc] at this
      exact this)
    refine ⟨st2, (A.score (h.take (A.kept h)).reverse k, (A.entry [k]).isNone) :: ps, ?_, ?_, ?_, ?_, ?_⟩
    · rw [scoreWords]
      simp only [e1, e2, Option.bind_eq_bind, Option.bind_some]
    · rw [List.reverse_cons, List.append_assoc]; exact inv2
    · simp [l2]
    · rw [o2, o1, List.countP_cons]
      omega
    · intro i w hw
      cases i with
      | zero =>
        simp only [List.getElem?_cons_zero, Option.some.injEq] at hw
        subst hw
        simp
      | succ i =>
        simp only [List.getElem?_cons_succ] at hw ⊢
        rw [List.take_succ_cons, List.reverse_cons, List.append_assoc]
        exact g2 i w hw

theorem fill_length {a a' : List (Option F)} {n : Nat} {x : F} (h : PState.fill a n x = some a') : a'.length = a.length := by
  unfold PState.fill at h
  split at h
  · cases h; simp; omega
  · simp at h

/-- A fresh state, whatever its uninitialised words are. -/
theorem new_inv (wf : A.WellFormed) (wd : K → Wd) (d : Wd) (one : F) :
    ∃ st, PState.new A.order d one = some st ∧ Inv A wd st [] ∧ st.oovs = 0 := by
  have h2 := wf.two_le
  have h8 := wf.le_max
  obtain ⟨a, ha⟩ : ∃ a, PState.fill (F := F) (List.replicate maxOrder none) (A.order - 1) one = some a :=
    ⟨_, if_pos (by rw [List.length_replicate]; omega)⟩
  have hl := fill_length ha
  rw [List.length_replicate] at hl
  refine ⟨⟨0, CircBuf.new A.order d, 0, 0, a, a⟩, by rw [PState.new, ha]; rfl, ?_, rfl⟩
  refine ⟨(CircBuf.new_wf (by omega) d).has_nil, rfl, rfl, hl, hl, by show 0 < A.order; omega, Nat.zero_le _, ?_, rfl⟩
  intro i hi; exact absurd hi (Nat.not_lt_zero _)

/-- `init` forgets the sentence scored before. -/
theorem init_inv (wf : A.WellFormed) {st : PState Wd F} {h : List K} (inv : Inv A wd st h) :
    ∃ st', st.init = some st' ∧ Inv A wd st' [] ∧ st'.oovs = 0 := by
  have h2 := wf.two_le
  have h8 := wf.le_max
  have hlt := inv.len_lt
  have hp := inv.prev
  obtain ⟨a, ha⟩ : ∃ a, PState.fill (F := F) st.prev st.length 0 = some a := ⟨_, if_pos (by omega)⟩
  have hl := fill_length ha
  refine ⟨{ st with words := st.words.init, prev := a, length := 0, oovs := 0, pos := 0 }, by rw [PState.init, ha]; rfl, ?_, rfl⟩
  refine ⟨inv.words.toWF.init.has_nil, inv.cap, rfl, inv.curr, by rw [hl, hp], by show 0 < A.order; omega, Nat.zero_le _, ?_, rfl⟩
  intro i hi; exact absurd hi (Nat.not_lt_zero _)

end Scorer

/-- Specification of the score of the `i`-th word `w` of the sentence `ws`, for any closed model: the textbook score with
the context the released code keeps. -/
def Spec.Arpa.keptScoreAt {K F : Type} [LogProb F] (A : Spec.Arpa K F) (ws : List K) (i : Nat) (w : K) : F :=
  A.score (Spec.Arpa.lastN (A.kept (ws.take i).reverse) (ws.take i)) w

namespace Scorer
variable {K Wd F C : Type} [LogProb F] {S : Scorer K Wd F C} {A : Spec.Arpa K F} {V : List K → Prop} {wd : K → Wd}

theorem lastN_eq (n : Nat) (l : List K) : (l.reverse.take n).reverse = Spec.Arpa.lastN n l := by
  rw [List.take_reverse, List.reverse_reverse]; rfl

theorem keptScoreAt_eq (wf : A.WellFormed) (nzc : A.NonZeroContexts) (ws : List K) (i : Nat) (w : K) :
    A.keptScoreAt ws i w = A.scoreAt ws i w := by
  rw [Spec.Arpa.keptScoreAt, Spec.Arpa.scoreAt, ← lastN_eq, ← lastN_eq, score_kept wf nzc]

/-- A gram, most recent word first, that occurs in the sentence. -/
def Occurs (ws : List K) (g : List K) : Prop := ∃ i k, i < ws.length ∧ 1 ≤ k ∧ g = ((ws.take (i + 1)).reverse).take k

/-- Scoring a sentence from a state that starts a sentence. -/
theorem sentence_spec (I : Implements S A V wd) (wf : A.WellFormed) (ws : List K) {st : PState Wd F}
    (inv : Inv A wd st []) (hV : ∀ g, Occurs ws g → V g) :
    ∃ st' ps, S.scoreWords ws st = some (st', ps) ∧ Inv A wd st' ws.reverse ∧ ps.length = ws.length ∧
      st'.oovs = st.oovs + ws.countP (fun w => (A.entry [w]).isNone) ∧
      ∀ i w, ws[i]? = some w → ps[i]? = some (A.keptScoreAt ws i w, (A.entry [w]).isNone) := by
  obtain ⟨st', ps, e, inv', l, o, g⟩ := scoreWords_spec I wf ws inv (fun i k hi hk => by
    rw [List.append_nil]; exact hV _ ⟨i, k, hi, hk, rfl⟩)
  rw [List.append_nil] at inv'
  refine ⟨st', ps, e, inv', l, o, fun i w hw => ?_⟩
  have := g i w hw
  rw [List.append_nil, lastN_eq] at this
  exact this

theorem lineLoop_eq (S : Scorer K Wd F C) (ws : List K) (st : PState Wd F) (sum oov : F) :
    S.lineLoop ws st sum oov = (S.scoreWords ws st).map fun r =>
      (r.1, r.2.foldl (fun a p => a + p.1) sum, (r.2.filter (·.2)).foldl (fun a p => a + p.1) oov) := by
  induction ws generalizing st sum oov with
  | nil => rfl
  | cons k ks ih =>
    rw [lineLoop, scoreWords]
    cases h1 : S.score st k with
    | none => rfl
    | some r =>
      obtain ⟨st1, p, o⟩ := r
      simp only [Option.bind_eq_bind, Option.bind_some, ih]
      cases h2 : S.scoreWords ks st1 with
      | none => rfl
      | some r =>
        obtain ⟨st2, ps⟩ := r
        cases o <;> simp

end Scorer

/-- Specification: the word scores of a sentence, with whether the word is unknown. -/
def Spec.Arpa.wordScores {K F : Type} [LogProb F] (A : Spec.Arpa K F) (ws : List K) : List (F × Bool) :=
  ws.mapIdx fun i w => (A.keptScoreAt ws i w, (A.entry [w]).isNone)

/-- Specification: the contribution of one sentence to the totals — it depends on the sentence alone. -/
def Spec.Arpa.sentenceScore {K F : Type} [LogProb F] (A : Spec.Arpa K F) (ws : List K) : F :=
  (A.wordScores ws).foldl (fun a p => a + p.1) 0

/-- Specification: what `score_corpus` reports. -/
def Spec.Arpa.corpus {K F : Type} [LogProb F] (A : Spec.Arpa K F) (text : List (List K)) : Totals F where
  oovs := (text.map fun ws => ws.countP fun w => (A.entry [w]).isNone).sum
  sentences := text.length
  tokens := (text.map List.length).sum
  total := (text.map A.sentenceScore).foldl (· + ·) 0
  onlyOOVs := ((text.flatMap A.wordScores).filter (·.2)).foldl (fun a p => a + p.1) 0

namespace Scorer
variable {K Wd F C : Type} [LogProb F] {S : Scorer K Wd F C} {A : Spec.Arpa K F} {V : List K → Prop} {wd : K → Wd}

theorem scores_unique {ws : List K} {ps : List (F × Bool)} (hl : ps.length = ws.length)
    (h : ∀ i w, ws[i]? = some w → ps[i]? = some (A.keptScoreAt ws i w, (A.entry [w]).isNone)) : ps = A.wordScores ws := by
  apply List.ext_getElem?
  intro i
  rw [Spec.Arpa.wordScores, List.getElem?_mapIdx]
  cases hw : ws[i]? with
  | some w => rw [h i w hw]; rfl
  | none =>
    rw [List.getElem?_eq_none_iff] at hw
    rw [List.getElem?_eq_none (by omega)]; rfl

theorem corpusLoop_spec (I : Implements S A V wd) (wf : A.WellFormed) (text : List (List K))
    (hV : ∀ ws ∈ text, ∀ g, Occurs ws g → V g) {st : PState Wd F} {h : List K} (inv : Inv A wd st h) (t : Totals F) :
    ∃ st' h', S.corpusLoop text st t = some (st',
      ⟨t.oovs + (A.corpus text).oovs, t.sentences + text.length, t.tokens + (A.corpus text).tokens,
       (text.map A.sentenceScore).foldl (· + ·) t.total,
       ((text.flatMap A.wordScores).filter (·.2)).foldl (fun a p => a + p.1) t.onlyOOVs⟩) ∧ Inv A wd st' h' := by
  induction text generalizing st h t with
  | nil => exact ⟨st, h, rfl, inv⟩
  | cons ws text ih =>
    obtain ⟨st0, e0, inv0, o0⟩ := init_inv wf inv
    obtain ⟨st1, ps, e1, inv1, l1, o1, g1⟩ := sentence_spec I wf ws inv0 (hV ws List.mem_cons_self)
    obtain rfl := scores_unique l1 g1
    obtain ⟨st2, h2, e2, inv2⟩ := ih (fun w hw => hV w (List.mem_cons_of_mem _ hw)) inv1
      ⟨t.oovs + st1.oovs, t.sentences + 1, t.tokens + ws.length, t.total + A.sentenceScore ws,
        ((A.wordScores ws).filter (·.2)).foldl (fun a p => a + p.1) t.onlyOOVs⟩
    refine ⟨st2, h2, ?_, inv2⟩
    rw [corpusLoop]
    simp only [e0, lineLoop_eq, e1, Option.bind_eq_bind, Option.bind_some, Option.map_some]
    rw [show List.foldl (fun a p => a + p.1) 0 (A.wordScores ws) = A.sentenceScore ws from rfl, e2]
    simp only [Spec.Arpa.corpus, List.map_cons, List.sum_cons, List.length_cons, List.foldl_cons, List.flatMap_cons,
      List.filter_append, List.foldl_append, o1, o0]
    refine congrArg some (congrArg (Prod.mk st2) ?_)
    rw [Totals.mk.injEq]
    exact ⟨by omega, by omega, by omega, rfl, rfl⟩

/-- Scoring a sentence. -/
theorem scoreSentence_eq (I : Implements S A V wd) (wf : A.WellFormed) (d : Wd) (one : F) (ws : List K)
    (hV : ∀ g, Occurs ws g → V g) : S.scoreSentence d one ws = some (A.wordScores ws) := by
  obtain ⟨st, e, inv, -⟩ := new_inv (A := A) wf wd d one
  obtain ⟨st1, ps, e1, -, l1, -, g1⟩ := sentence_spec I wf ws inv hV
  obtain rfl := scores_unique l1 g1
  rw [scoreSentence, I.order, e]
  simp only [e1, Option.bind_eq_bind, Option.bind_some]

/-- Scoring a corpus. -/
theorem scoreCorpus_eq (I : Implements S A V wd) (wf : A.WellFormed) (d : Wd) (one : F) (text : List (List K))
    (hV : ∀ ws ∈ text, ∀ g, Occurs ws g → V g) : S.scoreCorpus d one text = some (A.corpus text) := by
  obtain ⟨st, e, inv, -⟩ := new_inv (A := A) wf wd d one
  obtain ⟨st1, h1, e1, -⟩ := corpusLoop_spec I wf text hV inv ⟨0, 0, 0, 0, 0⟩
  rw [scoreCorpus, I.order, e]
  simp only [e1, Option.bind_eq_bind, Option.bind_some]
  simp only [Spec.Arpa.corpus, Nat.zero_add]

/-- With non-zero contexts the scores are the textbook ones. -/
theorem wordScores_textbook (wf : A.WellFormed) (nzc : A.NonZeroContexts) (ws : List K) :
    A.wordScores ws = ws.mapIdx fun i w => (A.scoreAt ws i w, (A.entry [w]).isNone) := by
  unfold Spec.Arpa.wordScores
  simp only [keptScoreAt_eq wf nzc]

/-- The totals of a corpus in terms of the scores of its sentences. -/
theorem corpus_totals (I : Implements S A V wd) (wf : A.WellFormed) (d : Wd) (one : F) (text : List (List K))
    (hV : ∀ ws ∈ text, ∀ g, Occurs ws g → V g) :
    ∃ scores : List (List (F × Bool)), (∀ (i : Nat) ws, text[i]? = some ws → scores[i]? = S.scoreSentence d one ws) ∧ scores.length = text.length ∧
      ∃ total : Totals F, S.scoreCorpus d one text = some total ∧
        total.sentences = text.length ∧ total.tokens = (text.map List.length).sum ∧
        total.oovs = (scores.map fun s => s.countP (·.2)).sum ∧
        total.total = (scores.map fun s => (s.map (·.1)).foldl (· + ·) 0).foldl (· + ·) 0 ∧
        total.onlyOOVs = ((scores.flatten.filter (·.2)).map (·.1)).foldl (· + ·) 0 := by
  refine ⟨text.map A.wordScores, ?_, by simp, A.corpus text, scoreCorpus_eq I wf d one text hV, rfl, rfl, ?_, ?_, ?_⟩
  · intro i ws hi
    rw [List.getElem?_map, hi, Option.map_some, scoreSentence_eq I wf d one ws (hV ws (List.mem_of_getElem? hi))]
  · rw [List.map_map]
    show (text.map _).sum = _
    congr 1
    apply List.map_congr_left
    intro ws _
    have key : ∀ (l pre : List K), ((l.mapIdx fun i w => (A.keptScoreAt ws (i + pre.length) w, (A.entry [w]).isNone)).countP (·.2)) =
        l.countP fun w => (A.entry [w]).isNone := by
      intro l
      induction l with
      | nil => intro _; rfl
      | cons a l ih =>
        intro pre
        rw [List.mapIdx_cons, List.countP_cons, List.countP_cons, ← ih (a :: pre)]
        congr 2
        apply List.mapIdx_eq_mapIdx_iff.2
        intro i hi
        rw [List.length_cons, show i + (pre.length + 1) = i + 1 + pre.length by omega]
    exact (key ws []).symm
  · show (text.map A.sentenceScore).foldl _ _ = _
    rw [List.map_map]
    congr 1
    apply List.map_congr_left
    intro ws _
    show (A.wordScores ws).foldl _ _ = ((A.wordScores ws).map (·.1)).foldl _ _
    rw [List.foldl_map]
  · show ((text.flatMap A.wordScores).filter (·.2)).foldl _ _ = _
    rw [List.foldl_map, List.flatMap_def]

end Scorer
end Tongrams
