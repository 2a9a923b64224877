import Verif.Word

/-!
# Byte ranges and tokenisation

Models the functions of `namespace bytes` (utils/util.hpp:68-203) and the iterators of `utils/iterators.hpp`.
Memory is a list of bytes, a pointer is an index in it; dereferencing a pointer outside is undefined (`none`).
-/

namespace Tongrams

abbrev Byte := BitVec 8
/-- The bytes of the buffer the pointers point into. -/
abbrev Mem := List Byte
/-- `byte_range` (utils/util_types.hpp): begin and one-past-the-end pointers. -/
abbrev ByteRange := Nat × Nat

/-- `' '` -/
def sp : Byte := 32#8
/-- `'\n'` -/
def nl : Byte := 10#8
/-- `'\t'` -/
def tab : Byte := 9#8

/-- Specification: words separated by single spaces. -/
def joinSp : List (List Byte) → List Byte
  | [] => []
  | [w] => w
  | w :: ws => w ++ sp :: joinSp ws

/-- Specification: the memory holds the string `s` from address `off` on. -/
def At (m : Mem) (off : Nat) (s : List Byte) : Prop := s <+: m.drop off

/-- Specification: where the words of `joinSp ws` are, if the string starts at address `off`. -/
def wordRanges : Nat → List (List Byte) → List ByteRange
  | _, [] => []
  | off, w :: ws => (off, off + w.length) :: wordRanges (off + w.length + 1) ws

/-- Specification: the bytes of a range. -/
def slice (m : Mem) (r : ByteRange) : List Byte := (m.drop r.1).take (r.2 - r.1)

/-- Specification: a range that lies in the memory. -/
def InMem (m : Mem) (r : ByteRange) : Prop := r.1 ≤ r.2 ∧ r.2 ≤ m.length

namespace Bytes

/-- Forward search bounded by an end pointer `n` bytes away: `for (; pos != end; ++pos) if (stop(*pos)) break;` -/
def findFwd (m : Mem) (stop : Byte → Bool) : Nat → Nat → Option Nat
  | 0, p => some p
  | n + 1, p => (m[p]?).bind fun b => if stop b then some p else findFwd m stop n (p + 1)

/-- Unbounded forward search, `while (*pos != c) ++pos` (the fuel is the number of bytes of the memory: running off its
end is undefined). -/
def scanFwd (m : Mem) (stop : Byte → Bool) : Nat → Nat → Option Nat
  | 0, _ => none
  | n + 1, p => (m[p]?).bind fun b => if stop b then some p else scanFwd m stop n (p + 1)

/-- Unbounded backward search. -/
def scanBwd (m : Mem) (stop : Byte → Bool) : Nat → Option Nat
  | 0 => (m[0]?).bind fun b => if stop b then some 0 else none
  | p + 1 => (m[p + 1]?).bind fun b => if stop b then some (p + 1) else scanBwd m stop p

/-- A pointer one lower (there is none below the buffer). -/
def dec : Nat → Option Nat
  | 0 => none
  | p + 1 => some p

@[simp] theorem dec_succ (p : Nat) : dec (p + 1) = some p := rfl

/-- `split_upon` (util.hpp:75-81): `s` followed by its null terminator is the memory. -/
def splitUpon (m : Mem) (c : Byte) : Option ByteRange := (scanFwd m (· == c) m.length 0).map fun p => (0, p)

/-- `split_upon_check_end` (util.hpp:85-96), `n` is `s.size()`. -/
def splitUponCheckEnd (m : Mem) (n : Nat) (c : Byte) : Option ByteRange := (findFwd m (· == c) n 0).map fun p => (0, p)

/-- `predecessor` (util.hpp:98-105): the pointer returned is that of the space. -/
def predecessor (m : Mem) (r : ByteRange) : Option ByteRange :=
  (dec r.2).bind fun p => (scanBwd m (· == sp) p).map fun q => (r.1, q)

/-- `suffix` (util.hpp:116-121). -/
def suffix (m : Mem) (r : ByteRange) : Option ByteRange := (scanFwd m (· == sp) m.length r.1).map fun q => (q + 1, r.2)

/-- The loop of `back_to` (util.hpp:134-145): `n` is `pos - range.first`; returns `pos` and `end`. -/
def backToLoop (m : Mem) (first back : Nat) : Nat → Nat → Nat → Option (Nat × Nat)
  | 0, _, e => some (first, e)
  | n + 1, spaces, e => (m[first + (n + 1)]?).bind fun b =>
    if b = sp then
      if spaces + 1 = back + 1 then some (first + (n + 1), if spaces + 1 = back then first + (n + 1) else e)
      else backToLoop m first back n (spaces + 1) (if spaces + 1 = back then first + (n + 1) else e)
    else backToLoop m first back n spaces e

/-- `back_to` (util.hpp:128-147). -/
def backTo (m : Mem) (r : ByteRange) (back : Nat) : Option ByteRange :=
  (dec r.2).bind fun p => if p < r.1 then none else
  (backToLoop m r.1 back (p - r.1) 0 p).map fun q => (q.1 + 1, q.2)

/-- The loop of `to` (util.hpp:160-171): `n` is `range.second - pos`; returns `pos` and `begin`. -/
def toLoop (m : Mem) (off : Nat) : Nat → Nat → Nat → Nat → Option (Nat × Nat)
  | 0, p, _, b => some (p, b)
  | n + 1, p, spaces, b => (m[p]?).bind fun x =>
    if x = sp then
      if spaces + 1 = off + 1 then some (p, if spaces + 1 = off then p + 1 else b)
      else toLoop m off n (p + 1) (spaces + 1) (if spaces + 1 = off then p + 1 else b)
    else toLoop m off n (p + 1) spaces b

/-- `to` (util.hpp:154-174). -/
def toWord (m : Mem) (r : ByteRange) (off : Nat) : Option ByteRange :=
  (toLoop m off (r.2 - r.1) r.1 0 r.1).map fun q => (q.2, q.1)

/-- `next` (util.hpp:176-183). -/
def next (m : Mem) (r : ByteRange) : Option ByteRange :=
  (scanFwd m (· == sp) m.length (r.2 + 1)).map fun q => (r.2 + 1, q)

/-- `prev` (util.hpp:185-194). -/
def prev (m : Mem) (r : ByteRange) : Option ByteRange :=
  (dec r.1).bind fun p => (dec p).bind fun p => (scanBwd m (· == sp) p).map fun q => (q + 1, r.1 - 1)

/-- `equal_bytes` (util.hpp:196-202). -/
def equalBytes (m : Mem) (x y : ByteRange) : Option Bool :=
  if x.2 - x.1 = y.2 - y.1 then
    if x.2 ≤ m.length ∧ y.2 ≤ m.length then some (slice m x == slice m y) else none
  else some false

end Bytes

/-- `forward_byte_range_iterator` (iterators.hpp:93-124), members 121-123. -/
structure FwdIter where
  cur : Nat
  first : Nat
  last : Nat

namespace FwdIter

/-- `init` (iterators.hpp:94-98). -/
def init (r : ByteRange) : FwdIter := ⟨r.1, r.1, r.2⟩

/-- `spaces` (iterators.hpp:100-102). -/
def spaces (m : Mem) (it : FwdIter) : Nat := (slice m (it.first, it.last)).count sp

/-- `has_next` (iterators.hpp:104-106). -/
def hasNext (it : FwdIter) : Bool := decide (it.cur < it.last)

/-- `next` (iterators.hpp:108-118).  When `cur` is beyond `last` the C++ loop runs off the buffer: undefined. -/
def next (m : Mem) (it : FwdIter) : Option (ByteRange × FwdIter) :=
  if it.last < it.cur then none else
  (Bytes.findFwd m (fun b => b == sp || b == nl) (it.last - it.cur) it.cur).map fun p => ((it.cur, p), { it with cur := p + 1 })

/-- `n` calls of `next`. -/
def take (m : Mem) : Nat → FwdIter → Option (List ByteRange × FwdIter)
  | 0, it => some ([], it)
  | n + 1, it => (it.next m).bind fun x => (take m n x.2).map fun y => (x.1 :: y.1, y.2)

/-- `while (it.has_next()) { auto word = it.next(); ... }` (python/tongrams.cpp:112-113), at most `fuel` times (more is undefined). -/
def all (m : Mem) : Nat → FwdIter → Option (List ByteRange)
  | 0, it => if it.hasNext then none else some []
  | n + 1, it => if it.hasNext then (it.next m).bind fun x => (all m n x.2).map (x.1 :: ·) else some []

end FwdIter

/-- `backward_byte_range_iterator` (iterators.hpp:126-154), members 151-153. -/
structure BwdIter where
  cur : Nat
  first : Nat
  last : Nat

namespace BwdIter

/-- `init` (iterators.hpp:127-131). -/
def init (r : ByteRange) : BwdIter := ⟨r.2, r.1, r.2⟩

/-- `spaces` (iterators.hpp:133-135). -/
def spaces (m : Mem) (it : BwdIter) : Nat := (slice m (it.first, it.last)).count sp

/-- The loop of `next` (iterators.hpp:140-144), `n` is `pos - m_begin`: the final `pos`. -/
def back (m : Mem) (first : Nat) : Nat → Option Nat
  | 0 => some first
  | n + 1 => (m[first + (n + 1)]?).bind fun b => if b = sp then some (first + (n + 1)) else back m first n

/-- `next` (iterators.hpp:137-148).  When `cur` is `first` the C++ loop runs off the buffer: undefined. -/
def next (m : Mem) (it : BwdIter) : Option (ByteRange × BwdIter) :=
  (Bytes.dec it.cur).bind fun p => if p < it.first then none else
  (back m it.first (p - it.first)).map fun q => ((if q ≠ it.first then q + 1 else it.first, it.cur), { it with cur := q })

/-- `n` calls of `next`. -/
def take (m : Mem) : Nat → BwdIter → Option (List ByteRange × BwdIter)
  | 0, it => some ([], it)
  | n + 1, it => (it.next m).bind fun x => (take m n x.2).map fun y => (x.1 :: y.1, y.2)

end BwdIter

/-- `text_lines` (iterators.hpp:11-64), members 58-63; the file is the memory and `m_size` its length. -/
structure TextLines where
  pos : Nat
  words : Nat
  eol : Bool
  deriving DecidableEq

namespace TextLines

/-- The constructor (iterators.hpp:12). -/
def new : TextLines := ⟨0, 0, false⟩

/-- `next_word` (iterators.hpp:27-39): the loop stops at a space or at a newline, which also sets `m_eol`. -/
def nextWord (m : Mem) (t : TextLines) : Option (ByteRange × TextLines) :=
  (Bytes.scanFwd m (fun b => b == sp || b == nl) m.length t.pos).bind fun p =>
  (m[p]?).map fun b => ((t.pos, p), ⟨p + 1, t.words + 1, t.eol || (b == nl)⟩)

/-- The words of the current line: `while (!corpus.end_of_line()) { auto word = corpus.next_word(); ... }` (score.cpp:40-41). -/
def line (m : Mem) : Nat → TextLines → Option (List ByteRange × TextLines)
  | 0, t => if t.eol then some ([], t) else none
  | n + 1, t => if t.eol then some ([], t) else
    (t.nextWord m).bind fun x => (line m n x.2).map fun y => (x.1 :: y.1, y.2)

/-- The lines of the file: `while (!corpus.end_of_file()) { ... corpus.begin_line(); ... }` (score.cpp:32, 39). -/
def lines (m : Mem) : Nat → TextLines → Option (List (List ByteRange) × TextLines)
  | 0, t => if t.pos = m.length then some ([], t) else none
  | n + 1, t => if t.pos = m.length then some ([], t) else
    (line m m.length { t with eol := false }).bind fun x => (lines m n x.2).map fun y => (x.1 :: y.1, y.2)

/-- All the lines of a file. -/
def all (m : Mem) : Option (List (List ByteRange) × TextLines) := lines m m.length new

end TextLines

/-- Specification: a text file: each sentence on a line, its words separated by single spaces, each line ended by a newline. -/
def textOf (text : List (List (List Byte))) : Mem := text.flatMap fun l => joinSp l ++ [nl]

/-- Specification: where the words of each line of a text are. -/
def lineRanges : Nat → List (List (List Byte)) → List (List ByteRange)
  | _, [] => []
  | off, l :: ls => wordRanges off l :: lineRanges (off + (joinSp l).length + 1) ls

/-! ## Proofs -/

namespace At
variable {m : Mem} {off : Nat} {s t : List Byte}

theorem append : At m off (s ++ t) ↔ At m off s ∧ At m (off + s.length) t := by
  unfold At
  rw [← List.drop_drop]
  constructor
  · rintro ⟨r, hr⟩
    rw [← hr]
    refine ⟨⟨t ++ r, by simp⟩, ?_⟩
    rw [List.append_assoc, List.drop_left]
    exact List.prefix_append _ _
  · rintro ⟨⟨r, hr⟩, h2⟩
    rw [← hr] at h2 ⊢
    rw [List.drop_left] at h2
    exact (List.prefix_append_right_inj s).2 h2

theorem get (h : At m off s) {i : Nat} (hi : i < s.length) : m[off + i]? = some s[i] := by
  obtain ⟨r, hr⟩ := h
  rw [← List.getElem?_drop, ← hr, List.getElem?_append_left hi, List.getElem?_eq_getElem hi]

theorem cons {b : Byte} : At m off (b :: s) ↔ m[off]? = some b ∧ At m (off + 1) s := by
  rw [show b :: s = [b] ++ s from rfl, append]
  constructor
  · rintro ⟨h, h2⟩; exact ⟨by simpa using h.get (i := 0) (by simp), h2⟩
  · rintro ⟨h, h2⟩
    refine ⟨?_, h2⟩
    obtain ⟨hlt, rfl⟩ := List.getElem?_eq_some_iff.1 h
    unfold At
    rw [List.drop_eq_getElem_cons hlt]
    exact ⟨_, rfl⟩

theorem slice_eq (h : At m off s) : slice m (off, off + s.length) = s := by
  obtain ⟨r, hr⟩ := h
  unfold slice
  show (m.drop off).take (off + s.length - off) = s
  rw [← hr, Nat.add_sub_cancel_left, List.take_left]

theorem le (h : At m off s) (hne : s ≠ []) : off + s.length ≤ m.length := by
  obtain ⟨r, hr⟩ := h
  have h1 := congrArg List.length hr
  rw [List.length_append, List.length_drop] at h1
  have := List.length_pos_iff.2 hne
  omega

end At

theorem joinSp_cons {w : List Byte} {ws : List (List Byte)} (h : ws ≠ []) : joinSp (w :: ws) = w ++ sp :: joinSp ws := by
  cases ws with
  | nil => exact absurd rfl h
  | cons _ _ => rfl

/-- Words followed by a space each. -/
def spaced (ws : List (List Byte)) : List Byte := ws.flatMap (· ++ [sp])

theorem spaced_cons (w : List Byte) (ws : List (List Byte)) : spaced (w :: ws) = w ++ sp :: spaced ws := by
  unfold spaced; simp

theorem joinSp_append (as : List (List Byte)) {bs : List (List Byte)} (h : bs ≠ []) : joinSp (as ++ bs) = spaced as ++ joinSp bs := by
  induction as with
  | nil => rfl
  | cons a as ih =>
    rw [List.cons_append, joinSp_cons (by simp [h]), ih, spaced_cons]; simp

theorem spaced_eq {ws : List (List Byte)} (h : ws ≠ []) : spaced ws = joinSp ws ++ [sp] := by
  induction ws with
  | nil => exact absurd rfl h
  | cons w ws ih =>
    rw [spaced_cons]
    cases hws : ws with
    | nil => rfl
    | cons a l => rw [← hws, ih (by simp [hws]), joinSp_cons (by simp [hws])]; simp

theorem wordRanges_length (off : Nat) (ws : List (List Byte)) : (wordRanges off ws).length = ws.length := by
  induction ws generalizing off with
  | nil => rfl
  | cons w ws ih => rw [wordRanges, List.length_cons, ih, List.length_cons]

theorem wordRanges_append (off : Nat) (as bs : List (List Byte)) :
    wordRanges off (as ++ bs) = wordRanges off as ++ wordRanges (off + (spaced as).length) bs := by
  induction as generalizing off with
  | nil => rfl
  | cons a as ih =>
    rw [List.cons_append, wordRanges, ih, wordRanges, spaced_cons, List.cons_append]
    congr 3
    simp only [List.length_append, List.length_cons]; omega

/-- The `k`-th word and its neighbourhood. -/
theorem wordRanges_get {off k : Nat} {ws : List (List Byte)} {r : ByteRange} (h : (wordRanges off ws)[k]? = some r) :
    ∃ as w bs, ws = as ++ w :: bs ∧ as.length = k ∧ r = (off + (spaced as).length, off + (spaced as).length + w.length) := by
  have hlt := (List.getElem?_eq_some_iff.1 h).1
  rw [wordRanges_length] at hlt
  have e : ws = ws.take k ++ ws[k] :: ws.drop (k + 1) := by
    rw [← List.drop_eq_getElem_cons hlt, List.take_append_drop]
  refine ⟨_, _, _, e, by rw [List.length_take]; omega, ?_⟩
  rw [e, wordRanges_append, List.getElem?_append_right (by rw [wordRanges_length, List.length_take]; omega), wordRanges_length,
    List.length_take, show k - min k ws.length = 0 by omega, wordRanges] at h
  simp only [List.getElem?_cons_zero, Option.some.injEq] at h
  exact h.symm

namespace Bytes
variable {m : Mem} {stop : Byte → Bool}

theorem findFwd_spec {n p q : Nat} (hpq : p ≤ q) (hq : q ≤ p + n) (hno : ∀ i, p ≤ i → i < q → ∃ b, m[i]? = some b ∧ stop b = false)
    (hst : q = p + n ∨ ∃ b, m[q]? = some b ∧ stop b = true) : findFwd m stop n p = some q := by
  induction n generalizing p with
  | zero => rw [findFwd, show p = q by omega]
  | succ n ih =>
    rw [findFwd]
    by_cases h : p = q
    · subst h
      rcases hst with h | ⟨b, hb, hs⟩
      · omega
      · rw [hb, Option.bind_some, if_pos hs]
    · obtain ⟨b, hb, hs⟩ := hno p (by omega) (by omega)
      rw [hb, Option.bind_some, hs]
      exact ih (by omega) (by omega) (fun i h1 h2 => hno i (by omega) h2) (by rcases hst with h | h; exact .inl (by omega); exact .inr h)

theorem scanFwd_spec {n p q : Nat} (hpq : p ≤ q) (hq : q < p + n) (hno : ∀ i, p ≤ i → i < q → ∃ b, m[i]? = some b ∧ stop b = false)
    (hst : ∃ b, m[q]? = some b ∧ stop b = true) : scanFwd m stop n p = some q := by
  induction n generalizing p with
  | zero => omega
  | succ n ih =>
    rw [scanFwd]
    by_cases h : p = q
    · subst h
      obtain ⟨b, hb, hs⟩ := hst
      rw [hb, Option.bind_some, if_pos hs]
    · obtain ⟨b, hb, hs⟩ := hno p (by omega) (by omega)
      rw [hb, Option.bind_some, hs]
      exact ih (by omega) (by omega) (fun i h1 h2 => hno i (by omega) h2)

theorem scanBwd_spec {p q : Nat} (hpq : q ≤ p) (hno : ∀ i, q < i → i ≤ p → ∃ b, m[i]? = some b ∧ stop b = false)
    (hst : ∃ b, m[q]? = some b ∧ stop b = true) : scanBwd m stop p = some q := by
  induction p with
  | zero =>
    obtain ⟨b, hb, hs⟩ := hst
    have : q = 0 := by omega
    subst this
    rw [scanBwd, hb, Option.bind_some, if_pos hs]
  | succ p ih =>
    rw [scanBwd]
    by_cases h : p + 1 = q
    · subst h
      obtain ⟨b, hb, hs⟩ := hst
      rw [hb, Option.bind_some, if_pos hs]
    · obtain ⟨b, hb, hs⟩ := hno (p + 1) (by omega) (by omega)
      rw [hb, Option.bind_some, hs]
      exact ih (by omega) (fun i h1 h2 => hno i h1 (by omega))

/-- The bytes of a word without stop characters. -/
theorem at_no {off : Nat} {w : List Byte} (h : At m off w) (hw : ∀ b ∈ w, stop b = false) :
    ∀ i, off ≤ i → i < off + w.length → ∃ b, m[i]? = some b ∧ stop b = false := by
  intro i h1 h2
  have := h.get (i := i - off) (by omega)
  rw [show off + (i - off) = i by omega] at this
  exact ⟨_, this, hw _ (List.getElem_mem _)⟩

end Bytes
end Tongrams
