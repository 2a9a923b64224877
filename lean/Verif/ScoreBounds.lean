import Verif.Score

/-!
# Scoring never leaves its arrays

The state-handling code of `score` (score.hpp, mph_prob_lm.hpp, state.hpp, circular_buffer.hpp) for look-ups that answer
*anything*: whatever the data structures return — right or wrong, hash collisions included — the arrays of the
state are never indexed out of their bounds and no uninitialised entry is read.
-/

namespace Tongrams
namespace Scorer
variable {K Wd F C : Type} [LogProb F]

/-- A call on the state: score a word, or start a new sentence. -/
inductive Call (K : Type) where
  | score (w : K)
  | init

/-- A history of calls. -/
def runCalls (S : Scorer K Wd F C) : List (Call K) → PState Wd F → Option (PState Wd F)
  | [], st => some st
  | .score w :: cs, st => (S.score st w).bind fun r => runCalls S cs r.1
  | .init :: cs, st => st.init.bind fun st => runCalls S cs st

/-- The look-ups of the model return (anything at all), and a backoff is read for every order but the last. -/
structure Answers (S : Scorer K Wd F C) : Prop where
  first : ∀ k, ∃ r, S.first k = some r
  next : ∀ j c x, j < S.order → ∃ r, S.next j c x = some r ∧
    ∀ p b c', r = some (p, b, c') → (b = none ↔ j = S.order - 1)

structure GInv (S : Scorer K Wd F C) (st : PState Wd F) : Prop where
  words : st.words.WF
  cap : st.words.capacity = S.order
  pos : st.pos = 0
  curr : st.curr.length = maxOrder
  prev : st.prev.length = maxOrder
  len_lt : st.length < S.order
  back : ∀ i, i < st.length → ∃ b, st.prev[i]? = some (some b)

structure GLoop (S : Scorer K Wd F C) (st0 : PState Wd F) (l : Loop Wd F C) : Prop where
  words : l.st.words = st0.words
  prev : l.st.prev = st0.prev
  length : l.st.length = st0.length
  curr : l.st.curr.length = maxOrder
  pos : l.st.pos + 1 = l.orderM1
  it : l.it = l.st.words.rnext^[l.orderM1] l.st.words.rbegin
  jl : l.orderM1 ≤ st0.length + 1
  back : ∀ i, i < l.orderM1 → i + 1 < S.order → ∃ b, l.st.curr[i]? = some (some b)
  longest_le : l.longest ≤ l.orderM1
  longest_lt : l.longest < S.order

theorem gloop {S : Scorer K Wd F C} (ha : Answers S) (h8 : S.order ≤ maxOrder) {st0 : PState Wd F} (hw : st0.words.WF)
    (hlen : st0.length < S.order) (n : Nat) (l : Loop Wd F C) (hl : GLoop S st0 l) (hn : n = st0.length + 1 - l.orderM1) :
    ∃ l', S.loop n l = some l' ∧ l'.st.words = st0.words ∧ l'.st.prev = st0.prev ∧ l'.st.length = st0.length ∧
      l'.st.curr.length = maxOrder ∧ 1 ≤ l'.orderM1 ∧ l'.longest < S.order ∧
      ∀ i, i < l'.longest → ∃ b, l'.st.curr[i]? = some (some b) := by
  induction n generalizing l with
  | zero =>
    refine ⟨l, rfl, hl.words, hl.prev, hl.length, hl.curr, ?_, hl.longest_lt, ?_⟩
    · have := hl.pos; omega
    · have h1 := hl.longest_le
      have h2 := hl.longest_lt
      exact fun i hi => hl.back i (by omega) (by omega)
  | succ n ih =>
    have hpos := hl.pos
    have h1 := hl.longest_le
    have h2 := hl.longest_lt
    obtain ⟨x, hx⟩ := hw.rget_isSome l.orderM1
    have hder : l.st.advance.words.deref l.it = some x := by
      rw [CircBuf.rget] at hx
      show l.st.words.deref l.it = _
      rw [hl.it, hl.words]; exact hx
    obtain ⟨r, hr, hrb⟩ := ha.next l.orderM1 l.cur x (by omega)
    rw [loop]
    simp only [hder, hr, Option.bind_eq_bind, Option.bind_some]
    cases r with
    | none =>
      exact ⟨{ l with st := l.st.advance }, rfl, hl.words, hl.prev, hl.length, hl.curr, by show 1 ≤ l.orderM1; omega, hl.longest_lt,
        fun i (hi : i < l.longest) => hl.back i (by omega) (by omega)⟩
    | some r =>
      obtain ⟨p, b, c'⟩ := r
      have hb := hrb p b c' rfl
      cases b with
      | none =>
        have hj := hb.1 rfl
        apply ih
        · refine ⟨hl.words, hl.prev, hl.length, hl.curr, ?_, ?_, ?_, ?_, ?_, hl.longest_lt⟩
          · show l.st.pos + 1 + 1 = l.orderM1 + 1; omega
          · show l.st.words.rnext l.it = l.st.words.rnext^[l.orderM1 + 1] l.st.words.rbegin
            rw [Function.iterate_succ_apply', ← hl.it]
          · show l.orderM1 + 1 ≤ _; omega
          · intro i hi hio
            change i < l.orderM1 + 1 at hi
            exact hl.back i (by omega) hio
          · show l.longest ≤ l.orderM1 + 1; omega
        · show n = st0.length + 1 - (l.orderM1 + 1); omega
      | some b =>
        have hj : l.orderM1 ≠ S.order - 1 := fun e => by simpa using hb.2 e
        have hpl : l.st.advance.pos < l.st.advance.curr.length := by
          show l.st.pos + 1 < l.st.curr.length
          rw [hl.curr]; omega
        have hab : l.st.advance.addBackoff b =
            some { l.st.advance with curr := l.st.advance.curr.set l.st.advance.pos (some b) } := if_pos hpl
        simp only [hab, Option.bind_some]
        apply ih
        · refine ⟨hl.words, hl.prev, hl.length, ?_, ?_, ?_, ?_, ?_, ?_, ?_⟩
          · show (l.st.curr.set _ _).length = _; rw [List.length_set]; exact hl.curr
          · show l.st.pos + 1 + 1 = l.orderM1 + 1; omega
          · show l.st.words.rnext l.it = l.st.words.rnext^[l.orderM1 + 1] l.st.words.rbegin
            rw [Function.iterate_succ_apply', ← hl.it]
          · show l.orderM1 + 1 ≤ _; omega
          · intro i hi hio
            change i < l.orderM1 + 1 at hi
            show ∃ b', (l.st.curr.set (l.st.pos + 1) (some b))[i]? = some (some b')
            by_cases hie : i = l.orderM1
            · subst hie
              exact ⟨b, by rw [hpos, List.getElem?_set_self (by rw [hl.curr]; omega)]⟩
            · obtain ⟨b', e2⟩ := hl.back i (by omega) hio
              exact ⟨b', by rw [List.getElem?_set_ne (by omega), e2]⟩
          · show (if LogProb.nz b then l.orderM1 + 1 else l.longest) ≤ l.orderM1 + 1
            split <;> omega
          · show (if LogProb.nz b then l.orderM1 + 1 else l.longest) < S.order
            split <;> omega
        · show n = st0.length + 1 - (l.orderM1 + 1); omega

theorem gadd {st : PState Wd F} {L : Nat} (hb : ∀ i, i < L → ∃ b, st.prev[i]? = some (some b)) (n i : Nat) (prob : F)
    (hn : i + n ≤ L ∨ n = 0) : ∃ r, addBackoffs st n i prob = some r := by
  induction n generalizing i prob with
  | zero => exact ⟨_, rfl⟩
  | succ n ih =>
    obtain ⟨b, e2⟩ := hb i (by omega)
    have e3 : st.backoff i = some b := by rw [PState.backoff, e2]; rfl
    rw [addBackoffs]
    simp only [e3, Option.bind_eq_bind, Option.bind_some]
    exact ih _ _ (by omega)

theorem gscore {S : Scorer K Wd F C} (ha : Answers S) (h2 : 2 ≤ S.order) (h8 : S.order ≤ maxOrder) {st : PState Wd F}
    (inv : GInv S st) (w : K) : ∃ st' p o, S.score st w = some (st', p, o) ∧ GInv S st' := by
  obtain ⟨⟨x, f⟩, hf⟩ := ha.first w
  obtain ⟨ws, hpush, hws, hwcap⟩ := inv.words.has_nil.push x
  have hadd : st.addWord x = some { st with words := ws } := by rw [PState.addWord, hpush]; rfl
  have hm : 0 < maxOrder := by decide
  rw [Scorer.score]
  simp only [hf, hadd, Option.bind_eq_bind, Option.bind_some]
  cases f with
  | none =>
    have hab : ({ st with words := ws, oovs := st.oovs + 1 } : PState Wd F).addBackoff 0 =
        some { st with words := ws, oovs := st.oovs + 1, curr := st.curr.set 0 (some 0) } := by
      rw [PState.addBackoff]
      rw [if_pos (by show st.pos < st.curr.length; rw [inv.pos, inv.curr]; exact hm)]
      simp only [inv.pos]
    obtain ⟨r, hr⟩ := gadd (st := { st with words := ws, oovs := st.oovs + 1, curr := st.curr.set 0 (some 0) })
      (L := st.length) inv.back (st.length - 0) 0 S.unk (by omega)
    simp only [hab, Option.bind_some]
    rw [hr]
    refine ⟨_, _, _, rfl, hws.toWF, by rw [← inv.cap]; exact hwcap, rfl, inv.prev, ?_, by show 0 < S.order; omega, ?_⟩
    · show (st.curr.set 0 _).length = _
      rw [List.length_set]; exact inv.curr
    · intro i hi; exact absurd hi (Nat.not_lt_zero _)
  | some f =>
    obtain ⟨p, b, c⟩ := f
    have hab : ({ st with words := ws } : PState Wd F).addBackoff b =
        some { st with words := ws, curr := st.curr.set 0 (some b) } := by
      rw [PState.addBackoff]
      rw [if_pos (by show st.pos < st.curr.length; rw [inv.pos, inv.curr]; exact hm)]
      simp only [inv.pos]
    simp only [hab, Option.bind_some]
    obtain ⟨l', hloop, e1, e2, e3, e4, e5, e6, e7⟩ :=
      gloop (st0 := { st with words := ws, curr := st.curr.set 0 (some b) }) ha h8 hws.toWF inv.len_lt st.length
        { st := { st with words := ws, curr := st.curr.set 0 (some b) }, it := ws.rnext ws.rbegin, cur := c, prob := p,
          longest := if LogProb.nz b then 1 else 0, orderM1 := 1 }
        (by
          refine ⟨rfl, rfl, rfl, ?_, ?_, rfl, ?_, ?_, ?_, ?_⟩
          · show (st.curr.set 0 _).length = _
            rw [List.length_set]; exact inv.curr
          · show st.pos + 1 = 1
            rw [inv.pos]
          · show 1 ≤ st.length + 1; omega
          · intro i hi _
            change i < 1 at hi
            obtain rfl : i = 0 := by omega
            refine ⟨b, ?_⟩
            show (st.curr.set 0 (some b))[0]? = _
            rw [List.getElem?_set_self (by rw [inv.curr]; exact hm)]
          · show (if LogProb.nz b then 1 else 0) ≤ 1; split <;> omega
          · show (if LogProb.nz b then 1 else 0) < S.order; split <;> omega)
        (by show st.length = st.length + 1 - 1; omega)
    change l'.st.length = st.length at e3
    obtain ⟨r, hr⟩ := gadd (st := l'.st) (L := st.length) (by rw [e2]; exact inv.back) (l'.st.length - (l'.orderM1 - 1))
      (l'.orderM1 - 1) l'.prob (by omega)
    rw [hloop]
    simp only [Option.bind_some]
    rw [hr]
    refine ⟨_, _, _, rfl, ?_, ?_, rfl, ?_, e4, e6, e7⟩
    · show l'.st.words.WF
      rw [e1]; exact hws.toWF
    · show l'.st.words.capacity = _
      rw [e1, ← inv.cap]; exact hwcap
    · show l'.st.prev.length = _
      rw [e2]; exact inv.prev

theorem ginit {S : Scorer K Wd F C} (h2 : 2 ≤ S.order) (h8 : S.order ≤ maxOrder) {st : PState Wd F} (inv : GInv S st) :
    ∃ st', st.init = some st' ∧ GInv S st' := by
  have hlt := inv.len_lt
  have hp := inv.prev
  obtain ⟨a, ha⟩ : ∃ a, PState.fill (F := F) st.prev st.length 0 = some a := ⟨_, if_pos (by omega)⟩
  have hl := fill_length ha
  refine ⟨{ st with words := st.words.init, prev := a, length := 0, oovs := 0, pos := 0 }, by rw [PState.init, ha]; rfl, ?_⟩
  refine ⟨inv.words.init, inv.cap, rfl, inv.curr, by rw [hl, hp], by show 0 < S.order; omega, ?_⟩
  intro i hi; exact absurd hi (Nat.not_lt_zero _)

theorem gnew {S : Scorer K Wd F C} (h2 : 2 ≤ S.order) (h8 : S.order ≤ maxOrder) (d : Wd) (one : F) :
    ∃ st, PState.new S.order d one = some st ∧ GInv S st := by
  obtain ⟨a, ha⟩ : ∃ a, PState.fill (F := F) (List.replicate maxOrder none) (S.order - 1) one = some a :=
    ⟨_, if_pos (by rw [List.length_replicate]; omega)⟩
  have hl := fill_length ha
  rw [List.length_replicate] at hl
  refine ⟨⟨0, CircBuf.new S.order d, 0, 0, a, a⟩, by rw [PState.new, ha]; rfl, ?_⟩
  refine ⟨CircBuf.new_wf (by omega) d, rfl, rfl, hl, hl, by show 0 < S.order; omega, ?_⟩
  intro i hi; exact absurd hi (Nat.not_lt_zero _)

theorem gruns {S : Scorer K Wd F C} (ha : Answers S) (h2 : 2 ≤ S.order) (h8 : S.order ≤ maxOrder) (cs : List (Call K))
    {st : PState Wd F} (inv : GInv S st) : ∃ st', S.runCalls cs st = some st' ∧ GInv S st' := by
  induction cs generalizing st with
  | nil => exact ⟨st, rfl, inv⟩
  | cons c cs ih =>
    cases c with
    | score w =>
      obtain ⟨st1, p, o, e, inv1⟩ := gscore ha h2 h8 inv w
      obtain ⟨st2, e2, inv2⟩ := ih inv1
      exact ⟨st2, by rw [runCalls, e]; exact e2, inv2⟩
    | init =>
      obtain ⟨st1, e, inv1⟩ := ginit h2 h8 inv
      obtain ⟨st2, e2, inv2⟩ := ih inv1
      exact ⟨st2, by rw [runCalls, e]; exact e2, inv2⟩

end Scorer

/-- **C29.** For a model of any order from 2 to 8 whose look-ups return anything whatsoever, any history of `score` and
`init` calls from a fresh state runs without indexing outside the state's arrays and without reading an uninitialised
entry (both are `none` in the model), and leaves a state of length at most `order - 1`. -/
theorem C29_state_stays_in_bounds {K Wd F C : Type} [LogProb F] {S : Scorer K Wd F C} (h2 : 2 ≤ S.order) (h8 : S.order ≤ 8)
    (ha : S.Answers) (d : Wd) (one : F) (calls : List (Scorer.Call K)) :
    ∃ st0 st, PState.new S.order d one = some st0 ∧ S.runCalls calls st0 = some st ∧ st.length ≤ S.order - 1 := by
  obtain ⟨st0, e0, inv0⟩ := Scorer.gnew (S := S) h2 h8 d one
  obtain ⟨st, e, inv⟩ := Scorer.gruns ha h2 h8 calls inv0
  have := inv.len_lt
  exact ⟨st0, st, e0, e, by omega⟩

/-- Non-vacuity: a model of order 8 where every look-up succeeds with a non-zero backoff, so the state is as long as it
can get. -/
def ScoreBoundsExample.scorer : Scorer Nat Nat Int Unit where
  order := 8
  unk := -100
  first k := some (k, if k < 50 then some (-1, -2, ()) else none)
  next j _ _ := some (some (-3, if j = 7 then none else some (-4), ()))

example : ScoreBoundsExample.scorer.Answers :=
  ⟨fun _ => ⟨_, rfl⟩, fun j _ _ _ => ⟨_, rfl, by
    rintro p b c' h
    cases h
    show (if j = 7 then none else some (-4)) = none ↔ j = 7
    split <;> simp_all⟩⟩

example : ((PState.new 8 0 (1 : Int)).bind fun st0 =>
    (ScoreBoundsExample.scorer.runCalls ((List.range 9).map .score) st0).map (·.length)) = some 7 := by decide

/-- Beyond order 8 the state's arrays are too short: scoring ten words with a model of order 10 leaves them
(`util::check_order`, util.hpp:292-301, is what rules this out). -/
theorem C29_order_above_eight_defect :
    ((PState.new 10 0 (1 : Int)).map fun _ => ()) = none := by decide
