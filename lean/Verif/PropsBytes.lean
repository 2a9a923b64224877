import Verif.Bytes

/-!
# C31, C32: tokenisation, prefixes and suffixes of n-grams
-/

namespace Tongrams

/-- Specification: a word has no space and no newline. -/
def Spec.IsWord (w : List Byte) : Prop := ∀ b ∈ w, b ≠ sp ∧ b ≠ nl

theorem IsWord.nosp {w : List Byte} (h : Spec.IsWord w) : ∀ b ∈ w, (b == sp) = false := fun b hb => by simpa using (h b hb).1
theorem IsWord.nostop {w : List Byte} (h : Spec.IsWord w) : ∀ b ∈ w, (b == sp || b == nl) = false :=
  fun b hb => by simpa using h b hb

/-- The slices of the ranges are the words. -/
theorem slices_wordRanges {m : Mem} {off : Nat} {ws : List (List Byte)} (h : At m off (joinSp ws)) :
    (wordRanges off ws).map (slice m) = ws := by
  induction ws generalizing off with
  | nil => rfl
  | cons w ws ih =>
    rw [wordRanges, List.map_cons]
    by_cases hws : ws = []
    · subst hws
      have : At m off w := h
      rw [this.slice_eq]; rfl
    · rw [joinSp_cons hws, At.append, At.cons] at h
      rw [h.1.slice_eq, ih h.2.2]

theorem joinSp_length_cons {w : List Byte} {ws : List (List Byte)} (h : ws ≠ []) :
    (joinSp (w :: ws)).length = w.length + 1 + (joinSp ws).length := by
  rw [joinSp_cons h, List.length_append, List.length_cons]; omega

theorem count_joinSp {ws : List (List Byte)} (hw : ∀ w ∈ ws, Spec.IsWord w) (hne : ws ≠ []) : (joinSp ws).count sp + 1 = ws.length := by
  induction ws with
  | nil => exact absurd rfl hne
  | cons w ws ih =>
    have h0 : w.count sp = 0 := List.count_eq_zero.2 fun hm => (hw w List.mem_cons_self sp hm).1 rfl
    by_cases hws : ws = []
    · subst hws; show w.count sp + 1 = 1; omega
    · rw [joinSp_cons hws, List.count_append, h0, List.count_cons_self, List.length_cons, ← ih (fun x hx => hw x (List.mem_cons_of_mem _ hx)) hws]
      omega

namespace FwdIter

/-- One call at the beginning of a word. -/
theorem next_word {m : Mem} {off first last : Nat} {w : List Byte} (hat : At m off w) (hw : Spec.IsWord w)
    (hend : off + w.length = last ∨ (off + w.length < last ∧ m[off + w.length]? = some sp)) :
    (FwdIter.mk off first last).next m = some ((off, off + w.length), ⟨off + w.length + 1, first, last⟩) := by
  unfold next
  show (if last < off then none else _) = _
  rw [if_neg (by omega), Bytes.findFwd_spec (q := off + w.length) (by omega) (by show _ ≤ off + (last - off); omega)
    (Bytes.at_no hat (IsWord.nostop hw)) (by
      rcases hend with h | ⟨h, h2⟩
      · left; show _ = off + (last - off); omega
      · right; exact ⟨sp, h2, by decide⟩)]
  rfl

theorem take_words {m : Mem} (first : Nat) {ws : List (List Byte)} {off last : Nat} (hat : At m off (joinSp ws)) (hw : ∀ w ∈ ws, Spec.IsWord w) (hne : ws ≠ [])
    (hl : last = off + (joinSp ws).length) :
    take m ws.length ⟨off, first, last⟩ = some (wordRanges off ws, ⟨last + 1, first, last⟩) := by
  induction ws generalizing off with
  | nil => exact absurd rfl hne
  | cons w ws ih =>
    rw [List.length_cons, take]
    by_cases hws : ws = []
    · subst hws
      have hl' : off + w.length = last := hl.symm
      rw [next_word (w := w) hat (hw w List.mem_cons_self) (.inl hl'), hl']
      simp only [Option.bind_some, List.length_nil, take, Option.map_some, wordRanges, hl']
    · rw [joinSp_length_cons hws] at hl
      rw [joinSp_cons hws, At.append, At.cons] at hat
      rw [next_word hat.1 (hw w List.mem_cons_self) (.inr ⟨by omega, hat.2.1⟩), Option.bind_some,
        ih hat.2.2 (fun x hx => hw x (List.mem_cons_of_mem _ hx)) hws (by omega)]
      rfl

theorem all_words {m : Mem} (first : Nat) {ws : List (List Byte)} {off last : Nat} (hat : At m off (joinSp ws))
    (hw : ∀ w ∈ ws, Spec.IsWord w ∧ w ≠ []) (hl : last = off + (joinSp ws).length) (n : Nat) (hn : ws.length ≤ n) :
    all m n ⟨off, first, last⟩ = some (wordRanges off ws) := by
  induction ws generalizing off n with
  | nil =>
    have : last = off := hl
    subst this
    cases n <;> simp [all, hasNext, wordRanges]
  | cons w ws ih =>
    obtain ⟨n, rfl⟩ : ∃ k, n = k + 1 := ⟨n - 1, by simp at hn; omega⟩
    have hpos := List.length_pos_iff.2 (hw w List.mem_cons_self).2
    rw [all]
    by_cases hws : ws = []
    · subst hws
      have hl' : off + w.length = last := hl.symm
      have : ({ cur := off, first := first, last := last } : FwdIter).hasNext = true := by unfold hasNext; simp; omega
      rw [if_pos this, next_word (w := w) hat (hw w List.mem_cons_self).1 (.inl hl'), hl', Option.bind_some]
      have h2 : ({ cur := last + 1, first := first, last := last } : FwdIter).hasNext = false := by unfold hasNext; simp
      cases n <;> simp [all, h2, wordRanges, hl']
    · rw [joinSp_length_cons hws] at hl
      rw [joinSp_cons hws, At.append, At.cons] at hat
      have : ({ cur := off, first := first, last := last } : FwdIter).hasNext = true := by unfold hasNext; simp; omega
      rw [if_pos this, next_word hat.1 (hw w List.mem_cons_self).1 (.inr ⟨by omega, hat.2.1⟩), Option.bind_some,
        ih hat.2.2 (fun x hx => hw x (List.mem_cons_of_mem _ hx)) (by omega) n (by simp at hn; omega)]
      rfl

end FwdIter

namespace BwdIter

theorem back_spec {m : Mem} {first n q : Nat} (h1 : first ≤ q) (h2 : q ≤ first + n)
    (hno : ∀ i, q < i → i ≤ first + n → ∃ b, m[i]? = some b ∧ (b == sp) = false) (hst : q = first ∨ m[q]? = some sp) :
    back m first n = some q := by
  induction n with
  | zero => rw [back, show first = q by omega]
  | succ n ih =>
    rw [back]
    by_cases h : q = first + (n + 1)
    · rcases hst with h' | h'
      · omega
      · rw [← h, h', Option.bind_some, if_pos rfl]
    · obtain ⟨b, hb, hs⟩ := hno (first + (n + 1)) (by omega) (by omega)
      rw [hb, Option.bind_some, if_neg (by simpa using hs)]
      exact ih (by omega) (fun i h1 h2 => hno i h1 (by omega))

theorem take_words {m : Mem} (off : Nat) (last : Nat) (ws : List (List Byte)) (hw : ∀ w ∈ ws, Spec.IsWord w ∧ w ≠ [])
    (hat : At m off (joinSp ws)) (hne : ws ≠ []) :
    ∃ it', take m ws.length ⟨off + (joinSp ws).length, off, last⟩ = some ((wordRanges off ws).reverse, it') := by
  obtain ⟨n, hn⟩ : ∃ n, ws.length = n := ⟨_, rfl⟩
  induction n generalizing ws with
  | zero => exact absurd (List.length_eq_zero_iff.1 hn) hne
  | succ n ih =>
    have e : ws = ws.dropLast ++ [ws.getLast hne] := (List.dropLast_concat_getLast hne).symm
    generalize ws.dropLast = as at e
    generalize ws.getLast hne = w at e
    subst e
    have hww := hw w (by simp)
    have hpos := List.length_pos_iff.2 hww.2
    rw [hn, take]
    have hlen : as.length = n := by simpa using hn
    rw [joinSp_append as (by simp), At.append] at hat
    have hatw : At m (off + (spaced as).length) w := hat.2
    have hjl : (joinSp (as ++ [w])).length = (spaced as).length + w.length := by
      rw [joinSp_append as (by simp), List.length_append]; rfl
    rw [hjl]
    by_cases has : as = []
    · subst has
      have h0 : off + ((spaced []).length + w.length) = (off + (w.length - 1)) + 1 := by
        show off + (0 + w.length) = _; omega
      have hb : back m off (w.length - 1) = some off := back_spec (by omega) (by omega) (by
          intro i h1 h2
          exact Bytes.at_no (stop := fun b => b == sp) (m := m) (off := off) (w := w) hatw (IsWord.nosp hww.1) i (by omega) (by omega)) (.inl rfl)
      have hnx : ({ cur := off + ((spaced []).length + w.length), first := off, last := last } : BwdIter).next m =
          some ((off, off + w.length), ⟨off, off, last⟩) := by
        unfold next
        simp only [h0, Bytes.dec, Option.bind_some]
        rw [if_neg (by omega), Nat.add_sub_cancel_left, hb, Option.map_some, if_neg (by simp)]
        rw [show off + (w.length - 1) + 1 = off + w.length by omega]
      rw [hnx, Option.bind_some]
      subst hlen
      exact ⟨_, rfl⟩
    · have hsp := spaced_eq has
      have hsl : (spaced as).length = (joinSp as).length + 1 := by rw [hsp, List.length_append]; rfl
      have hat1 := hat.1
      rw [hsp, At.append, At.cons] at hat1
      -- the first word is not empty
      have hj : 0 < (joinSp as).length := by
        cases has' : as with
        | nil => exact absurd has' has
        | cons a l =>
          have := List.length_pos_iff.2 (hw a (by simp [has'])).2
          by_cases hl : l = []
          · subst hl; exact this
          · rw [joinSp_length_cons hl]; omega
      have h0 : off + ((spaced as).length + w.length) = (off + (spaced as).length + w.length - 1) + 1 := by omega
      have hb : back m off (off + (spaced as).length + w.length - 1 - off) = some (off + (joinSp as).length) := back_spec (by omega) (by omega) (by
          intro i h1 h2
          exact Bytes.at_no (stop := fun b => b == sp) hatw (IsWord.nosp hww.1) i (by omega) (by omega)) (.inr hat1.2.1)
      have hnx : ({ cur := off + ((spaced as).length + w.length), first := off, last := last } : BwdIter).next m =
          some ((off + (spaced as).length, off + (spaced as).length + w.length), ⟨off + (joinSp as).length, off, last⟩) := by
        unfold next
        simp only [h0, Bytes.dec, Option.bind_some]
        rw [if_neg (by omega), hb, Option.map_some, if_pos (by omega)]
        rw [show off + (joinSp as).length + 1 = off + (spaced as).length by omega,
          show off + (spaced as).length + w.length - 1 + 1 = off + (spaced as).length + w.length by omega]
      rw [hnx, Option.bind_some]
      obtain ⟨it', hit⟩ := ih as (fun x hx => hw x (by simp [hx])) hat1.1 has hlen
      refine ⟨it', ?_⟩
      rw [hlen] at hit
      rw [hit, Option.map_some, wordRanges_append, List.reverse_append]
      rfl

end BwdIter

/-- **C31** (forward iterator).  Over the bytes of an n-gram `w₁ ⎵ w₂ ⎵ … ⎵ wₙ` anywhere in memory, `spaces()` is `n - 1`, `n` calls of `next()` give
the words in order, and, if no word is empty, the loop `while (has_next())` gives exactly them. -/
theorem C31_forward_iterator {m : Mem} {off : Nat} {ws : List (List Byte)} (hat : At m off (joinSp ws)) (hw : ∀ w ∈ ws, Spec.IsWord w) (hne : ws ≠ []) :
    let it := FwdIter.init (off, off + (joinSp ws).length)
    it.spaces m + 1 = ws.length ∧
    (∃ it' rs, it.take m ws.length = some (rs, it') ∧ rs.map (slice m) = ws ∧ rs = wordRanges off ws) ∧
    ((∀ w ∈ ws, w ≠ []) → ∀ n, ws.length ≤ n → it.all m n = some (wordRanges off ws)) := by
  refine ⟨?_, ⟨_, _, FwdIter.take_words off hat hw hne rfl, slices_wordRanges hat, rfl⟩,
    fun h n hn => FwdIter.all_words off hat (fun w hm => ⟨hw w hm, h w hm⟩) rfl n hn⟩
  show (slice m (off, off + (joinSp ws).length)).count sp + 1 = _
  rw [hat.slice_eq, count_joinSp hw hne]

/-- **C31** (backward iterator).  Over the bytes of an n-gram of non-empty words, `spaces()` is `n - 1` and `n` calls of `next()` give the words from the last to
the first. -/
theorem C31_backward_iterator {m : Mem} {off : Nat} {ws : List (List Byte)} (hat : At m off (joinSp ws))
    (hw : ∀ w ∈ ws, Spec.IsWord w ∧ w ≠ []) (hne : ws ≠ []) :
    let it := BwdIter.init (off, off + (joinSp ws).length)
    it.spaces m + 1 = ws.length ∧
    ∃ it' rs, it.take m ws.length = some (rs, it') ∧ rs.map (slice m) = ws.reverse ∧ rs = (wordRanges off ws).reverse := by
  refine ⟨?_, ?_⟩
  · show (slice m (off, off + (joinSp ws).length)).count sp + 1 = _
    rw [hat.slice_eq, count_joinSp (fun w h => (hw w h).1) hne]
  · obtain ⟨it', h⟩ := BwdIter.take_words off (off + (joinSp ws).length) ws hw hat hne
    exact ⟨it', _, h, by rw [List.map_reverse, slices_wordRanges hat], rfl⟩

/-! ## text_lines -/

namespace TextLines

theorem nextWord_spec {m : Mem} {t : TextLines} {w : List Byte} (hw : Spec.IsWord w) {b : Byte} (hb : b = sp ∨ b = nl)
    (hat : At m t.pos (w ++ [b])) :
    t.nextWord m = some ((t.pos, t.pos + w.length), ⟨t.pos + w.length + 1, t.words + 1, t.eol || (b == nl)⟩) := by
  have hle := hat.le (by simp)
  rw [List.length_append, List.length_singleton] at hle
  rw [At.append, At.cons] at hat
  unfold nextWord
  rw [Bytes.scanFwd_spec (q := t.pos + w.length) (by omega) (by omega) (Bytes.at_no hat.1 (IsWord.nostop hw))
    ⟨b, hat.2.1, by rcases hb with rfl | rfl <;> decide⟩, Option.bind_some, hat.2.1]
  rfl

theorem line_spec {m : Mem} (ws : List (List Byte)) (hw : ∀ w ∈ ws, Spec.IsWord w) (hne : ws ≠ []) {t : TextLines} (ht : t.eol = false)
    (hat : At m t.pos (joinSp ws ++ [nl])) {n : Nat} (hn : ws.length ≤ n) :
    line m n t = some (wordRanges t.pos ws, ⟨t.pos + (joinSp ws).length + 1, t.words + ws.length, true⟩) := by
  induction ws generalizing t n with
  | nil => exact absurd rfl hne
  | cons w ws ih =>
    obtain ⟨n, rfl⟩ : ∃ k, n = k + 1 := ⟨n - 1, by simp at hn; omega⟩
    rw [line, ht, if_neg (by simp)]
    by_cases hws : ws = []
    · subst hws
      rw [nextWord_spec (w := w) (hw w List.mem_cons_self) (.inr rfl) hat, Option.bind_some, ht]
      have : line m n ⟨t.pos + w.length + 1, t.words + 1, false || (nl == nl)⟩ = some ([], ⟨t.pos + w.length + 1, t.words + 1, true⟩) := by
        cases n <;> rfl
      rw [this]; rfl
    · rw [joinSp_cons hws] at hat
      have hat2 : At m t.pos ((w ++ [sp]) ++ (joinSp ws ++ [nl])) := by simpa using hat
      rw [At.append, List.length_append, List.length_singleton] at hat2
      rw [nextWord_spec (hw w List.mem_cons_self) (.inl rfl) hat2.1, Option.bind_some, ht]
      have := ih (t := ⟨t.pos + w.length + 1, t.words + 1, false || (sp == nl)⟩) (n := n) (fun x hx => hw x (List.mem_cons_of_mem _ hx)) hws
        (show (false || (sp == nl)) = false by decide) hat2.2 (by simp at hn; omega)
      rw [this, Option.map_some, joinSp_length_cons hws, List.length_cons]
      simp only [wordRanges, Option.some.injEq, Prod.mk.injEq, TextLines.mk.injEq, true_and, and_true]
      omega

theorem joinSp_length_ge (ws : List (List Byte)) (h : ws ≠ []) : ws.length ≤ (joinSp ws).length + 1 := by
  induction ws with
  | nil => exact absurd rfl h
  | cons w ws ih =>
    by_cases hws : ws = []
    · subst hws; simp
    · have := ih hws
      rw [joinSp_length_cons hws, List.length_cons]; omega

theorem lines_spec {m : Mem} (text : List (List (List Byte))) (hw : ∀ l ∈ text, l ≠ [] ∧ ∀ w ∈ l, Spec.IsWord w) {t : TextLines}
    (hat : At m t.pos (textOf text)) (hm : t.pos + (textOf text).length = m.length) {n : Nat} (hn : text.length ≤ n) :
    ∃ e, lines m n t = some (lineRanges t.pos text, ⟨m.length, t.words + (text.map List.length).sum, e⟩) := by
  induction text generalizing t n with
  | nil =>
    have h0 : t.pos = m.length := hm
    refine ⟨t.eol, ?_⟩
    cases n <;> (rw [lines, if_pos h0, ← h0]; rfl)
  | cons l text ih =>
    obtain ⟨n, rfl⟩ : ∃ k, n = k + 1 := ⟨n - 1, by simp at hn; omega⟩
    have hl := hw l List.mem_cons_self
    have htx : textOf (l :: text) = (joinSp l ++ [nl]) ++ textOf text := by unfold textOf; rw [List.flatMap_cons]
    rw [htx] at hat hm
    rw [At.append] at hat
    simp only [List.length_append, List.length_singleton] at hat hm
    rw [lines, if_neg (by omega)]
    have hge := joinSp_length_ge l hl.1
    have h1 := line_spec l hl.2 hl.1 (t := { t with eol := false }) rfl hat.1 (n := m.length) (by omega)
    rw [h1, Option.bind_some]
    obtain ⟨e, he⟩ := ih (fun x hx => hw x (List.mem_cons_of_mem _ hx)) (t := ⟨t.pos + (joinSp l).length + 1, t.words + l.length, true⟩)
      (n := n) (by rw [← Nat.add_assoc] at hat; exact hat.2) (by show t.pos + (joinSp l).length + 1 + _ = _; omega) (by simp at hn; omega)
    refine ⟨e, ?_⟩
    rw [he, Option.map_some, List.map_cons, List.sum_cons, ← Nat.add_assoc t.words]
    rfl

end TextLines

/-- **C31** (text_lines).  Over a file of lines, each with one or more words separated by single spaces and ended by a newline, the reading loop gives the
words of each line, line by line, and `num_words()` is their number.  (An empty line counts as one empty word.) -/
theorem C31_text_lines (text : List (List (List Byte))) (hw : ∀ l ∈ text, l ≠ [] ∧ ∀ w ∈ l, Spec.IsWord w) :
    ∃ rs t, TextLines.all (textOf text) = some (rs, t) ∧ rs.map (·.map (slice (textOf text))) = text ∧ rs = lineRanges 0 text ∧
      t.words = (text.map List.length).sum := by
  have hat0 : At (textOf text) 0 (textOf text) := List.prefix_refl _
  have hle : text.length ≤ (textOf text).length := by
    clear hw hat0
    induction text with
    | nil => simp
    | cons l text ih =>
      have : textOf (l :: text) = (joinSp l ++ [nl]) ++ textOf text := by unfold textOf; rw [List.flatMap_cons]
      rw [this]; simp; omega
  obtain ⟨e, he⟩ := TextLines.lines_spec text hw (t := TextLines.new) hat0 (by show 0 + _ = _; omega) hle
  refine ⟨_, _, he, ?_, rfl, by show 0 + _ = _; omega⟩
  have key : ∀ (text : List (List (List Byte))) (m : Mem) (off : Nat), At m off (textOf text) → (lineRanges off text).map (·.map (slice m)) = text := by
    intro text
    induction text with
    | nil => intro _ _ _; rfl
    | cons l text ih =>
      intro m off h
      have : textOf (l :: text) = joinSp l ++ (nl :: textOf text) := by unfold textOf; rw [List.flatMap_cons]; simp
      rw [this, At.append, At.cons] at h
      rw [lineRanges, List.map_cons, slices_wordRanges h.1, ih m _ h.2.2]
  exact key text _ 0 hat0

/-- C31, defect: without a newline at the end of the file the reader runs past its end. -/
theorem C31_missing_final_newline_defect : TextLines.all [97#8, sp, 98#8] = none ∧
    TextLines.all [97#8, sp, 98#8, nl] = some ([[(0, 1), (2, 3)]], ⟨4, 2, true⟩) := by
  decide +kernel

/-- The hypotheses of C31 are met: "a bc" at address 1, and a text of two lines, the second empty. -/
example : At [120#8, 97#8, sp, 98#8, 99#8, nl] 1 (joinSp [[97#8], [98#8, 99#8]]) ∧ (∀ w ∈ [[97#8], [98#8, 99#8]], Spec.IsWord w ∧ w ≠ []) ∧
    (∀ l ∈ [[[97#8], [98#8]], [[]]], l ≠ [] ∧ ∀ w ∈ l, Spec.IsWord w) := by
  refine ⟨⟨[nl], by decide⟩, ?_, ?_⟩
  · intro w hw
    simp at hw
    rcases hw with rfl | rfl <;> simp [Spec.IsWord, sp, nl]
  · intro l hl
    simp at hl
    rcases hl with rfl | rfl <;> simp [Spec.IsWord, sp, nl]

/-! ## C32 -/

/-- **C32** (prefix).  `predecessor` of an n-gram of two or more words is the n-gram without its last word. -/
theorem C32_predecessor {m : Mem} {off : Nat} {ws : List (List Byte)} {w : List Byte} (hat : At m off (joinSp (ws ++ [w]))) (hw : Spec.IsWord w)
    (hne : ws ≠ []) :
    Bytes.predecessor m (off, off + (joinSp (ws ++ [w])).length) = some (off, off + (joinSp ws).length) ∧
      slice m (off, off + (joinSp ws).length) = joinSp ws := by
  rw [joinSp_append ws (by simp), spaced_eq hne] at hat ⊢
  have hlen : (joinSp ws ++ [sp] ++ joinSp [w]).length = (joinSp ws).length + 1 + w.length := by
    simp only [List.length_append, List.length_singleton]; rfl
  rw [hlen]
  rw [At.append, At.append, At.cons] at hat
  simp only [List.length_append, List.length_singleton] at hat
  refine ⟨?_, hat.1.1.slice_eq⟩
  unfold Bytes.predecessor
  simp only [show off + ((joinSp ws).length + 1 + w.length) = off + (joinSp ws).length + w.length + 1 by omega, Bytes.dec, Option.bind_some]
  rw [Bytes.scanBwd_spec (q := off + (joinSp ws).length) (by omega) ?_ ⟨sp, hat.1.2.1, by decide⟩]
  · rfl
  · intro i h1 h2
    exact Bytes.at_no (w := w) hat.2 (IsWord.nosp hw) i (by omega) (by omega)

/-- **C32** (suffix).  `suffix` of an n-gram of two or more words is the n-gram without its first word. -/
theorem C32_suffix {m : Mem} {off : Nat} {ws : List (List Byte)} {w : List Byte} (hat : At m off (joinSp (w :: ws))) (hw : Spec.IsWord w)
    (hne : ws ≠ []) :
    ∃ r, Bytes.suffix m (off, off + (joinSp (w :: ws)).length) = some r ∧ slice m r = joinSp ws := by
  have hl := joinSp_length_cons (w := w) hne
  have hle := hat.le (by intro e; have := congrArg List.length e; rw [hl] at this; simp at this)
  rw [joinSp_cons hne, At.append, At.cons] at hat
  refine ⟨(off + w.length + 1, off + (joinSp (w :: ws)).length), ?_, ?_⟩
  · unfold Bytes.suffix
    rw [Bytes.scanFwd_spec (q := off + w.length) (by show off ≤ _; omega) (by show _ < off + _; omega) (Bytes.at_no hat.1 (IsWord.nosp hw)) ⟨sp, hat.2.1, by decide⟩]
    rfl
  · rw [hl, show off + (w.length + 1 + (joinSp ws).length) = off + w.length + 1 + (joinSp ws).length by omega]
    exact hat.2.2.slice_eq

/-- **C32** (next).  From any word of an n-gram but the last two, `next` gives the following word. -/
theorem C32_next {m : Mem} {off k : Nat} {ws : List (List Byte)} (hat : At m off (joinSp ws)) (hw : ∀ w ∈ ws, Spec.IsWord w) (hk : k + 2 < ws.length)
    {r : ByteRange} (hr : (wordRanges off ws)[k]? = some r) : Bytes.next m r = (wordRanges off ws)[k + 1]? := by
  obtain ⟨as, w, bs, rfl, rfl, rfl⟩ := wordRanges_get hr
  obtain ⟨x, y, cs, rfl⟩ : ∃ x y cs, bs = x :: y :: cs := by
    rcases bs with _ | ⟨x, _ | ⟨y, cs⟩⟩
    · simp at hk
    · simp at hk
    · exact ⟨x, y, cs, rfl⟩
  rw [joinSp_append as (by simp), joinSp_cons (by simp), joinSp_cons (by simp)] at hat
  rw [At.append, At.append, At.cons, At.append, At.cons] at hat
  have hle : off + (spaced as).length + w.length + 1 + x.length < m.length := by
    have := (List.getElem?_eq_some_iff.1 hat.2.2.2.2.1).1; omega
  rw [wordRanges_append, List.getElem?_append_right (by rw [wordRanges_length]; omega), wordRanges_length, show as.length + 1 - as.length = 1 by omega]
  simp only [wordRanges, List.getElem?_cons_succ, List.getElem?_cons_zero]
  unfold Bytes.next
  rw [Bytes.scanFwd_spec (q := off + (spaced as).length + w.length + 1 + x.length) (by show _ + 1 ≤ _; omega) (by show _ < _ + 1 + _; omega)
    (Bytes.at_no hat.2.2.2.1 (IsWord.nosp (hw x (by simp)))) ⟨sp, hat.2.2.2.2.1, by decide⟩]
  rfl

/-- **C32** (prev).  From any word of an n-gram but the first two, `prev` gives the preceding word. -/
theorem C32_prev {m : Mem} {off k : Nat} {ws : List (List Byte)} (hat : At m off (joinSp ws)) (hw : ∀ w ∈ ws, Spec.IsWord w) 
    {r : ByteRange} (hr : (wordRanges off ws)[k + 2]? = some r) : Bytes.prev m r = (wordRanges off ws)[k + 1]? := by
  obtain ⟨as, w, bs, rfl, hk, rfl⟩ := wordRanges_get hr
  obtain ⟨cs, y, rfl⟩ : ∃ cs y, as = cs ++ [y] := by
    rcases List.eq_nil_or_concat as with rfl | ⟨cs, y, rfl⟩
    · simp at hk
    · exact ⟨cs, y, by simp⟩
  have hcs : cs ≠ [] := by rintro rfl; simp at hk
  have hsy : spaced (cs ++ [y]) = joinSp cs ++ [sp] ++ y ++ [sp] := by
    rw [show spaced (cs ++ [y]) = spaced cs ++ spaced [y] by unfold spaced; rw [List.flatMap_append], spaced_eq hcs]
    unfold spaced; simp
  have hlen : (spaced (cs ++ [y])).length = (joinSp cs).length + 1 + y.length + 1 := by
    rw [hsy]; simp only [List.length_append, List.length_singleton]
  rw [joinSp_append (cs ++ [y]) (by simp), hsy] at hat
  simp only [At.append, At.cons, List.length_append, List.length_singleton] at hat
  rw [hlen]
  have hg : (wordRanges off ((cs ++ [y]) ++ w :: bs))[k + 1]? = some (off + (joinSp cs).length + 1, off + (joinSp cs).length + 1 + y.length) := by
    have hc : cs.length = k + 1 := by simp at hk; omega
    rw [List.append_assoc, wordRanges_append, List.getElem?_append_right (by rw [wordRanges_length]; omega), wordRanges_length, hc,
      Nat.sub_self, spaced_eq hcs, List.length_append, List.length_singleton]
    simp only [wordRanges, List.cons_append, List.getElem?_cons_zero]
    rw [show off + ((joinSp cs).length + 1) = off + (joinSp cs).length + 1 by omega]
  rw [hg]
  unfold Bytes.prev
  simp only [show off + ((joinSp cs).length + 1 + y.length + 1) = off + (joinSp cs).length + y.length + 1 + 1 by omega, Bytes.dec_succ, Option.bind_some]
  rw [Bytes.scanBwd_spec (q := off + (joinSp cs).length) (by omega) ?_ ⟨sp, hat.1.1.1.2.1, by decide⟩]
  · rw [Option.map_some]
    congr 2; omega
  · intro i h1 h2
    have h3 := hat.1.1.2
    rw [show off + ((joinSp cs).length + 1) = off + (joinSp cs).length + 1 by omega] at h3
    exact Bytes.at_no h3 (IsWord.nosp (hw y (by simp))) i (by omega) (by omega)

/-! ### back_to and to -/

namespace Bytes

/-- Scanning back over a string without spaces. -/
theorem backToLoop_word {m : Mem} {first back : Nat} {w : List Byte} (hw : Spec.IsWord w) (n spaces e : Nat)
    (hat : At m (first + (n + 1)) w) : backToLoop m first back (n + w.length) spaces e = backToLoop m first back n spaces e := by
  obtain ⟨l, hl⟩ : ∃ l, w.length = l := ⟨_, rfl⟩
  induction l generalizing w with
  | zero => rw [hl, Nat.add_zero]
  | succ l ih =>
    have hne : w ≠ [] := by rintro rfl; simp at hl
    have e : w = w.dropLast ++ [w.getLast hne] := (List.dropLast_concat_getLast hne).symm
    generalize w.dropLast = v at e
    generalize w.getLast hne = b at e
    subst e
    have hv : v.length = l := by simpa using hl
    rw [At.append, At.cons] at hat
    have hb := hat.2.1
    rw [hl, ← Nat.add_assoc, backToLoop, show first + (n + l + 1) = first + (n + 1) + v.length by omega, hb, Option.bind_some,
      if_neg (hw b (by simp)).1, ← hv]
    exact ih (fun x hx => hw x (by simp [hx])) hat.1 hv

/-- Scanning back over words, each preceded by a space. -/
theorem backToLoop_words {m : Mem} {first back : Nat} (ws : List (List Byte)) (hw : ∀ w ∈ ws, Spec.IsWord w) (n spaces e : Nat)
    (hat : At m (first + (n + 1)) (ws.flatMap (sp :: ·))) (hs : spaces + ws.length < back) :
    backToLoop m first back (n + (ws.flatMap (sp :: ·)).length) spaces e = backToLoop m first back n (spaces + ws.length) e := by
  obtain ⟨l, hl⟩ : ∃ l, ws.length = l := ⟨_, rfl⟩
  induction l generalizing ws spaces with
  | zero => rw [List.length_eq_zero_iff.1 hl]; rfl
  | succ l ih =>
    have hne : ws ≠ [] := by rintro rfl; simp at hl
    have e' : ws = ws.dropLast ++ [ws.getLast hne] := (List.dropLast_concat_getLast hne).symm
    generalize ws.dropLast = vs at e'
    generalize ws.getLast hne = w at e'
    subst e'
    have hv : vs.length = l := by simpa using hl
    rw [List.flatMap_append] at hat ⊢
    have e2 : [w].flatMap (sp :: ·) = sp :: w := by simp
    rw [e2] at hat ⊢
    rw [At.append, At.cons] at hat
    rw [List.length_append] at hs ⊢
    simp only [List.length_cons, List.length_nil] at hs ⊢
    rw [show n + ((vs.flatMap (sp :: ·)).length + (w.length + 1)) = (n + (vs.flatMap (sp :: ·)).length + 1) + w.length by omega,
      backToLoop_word (hw w (by simp)) _ _ _ (by
        rw [show first + (n + (vs.flatMap (sp :: ·)).length + 1 + 1) = first + (n + 1) + (vs.flatMap (sp :: ·)).length + 1 by omega]; exact hat.2.2),
      backToLoop, show first + (n + (vs.flatMap (sp :: ·)).length + 1) = first + (n + 1) + (vs.flatMap (sp :: ·)).length by omega, hat.2.1,
      Option.bind_some, if_pos rfl, if_neg (by omega), if_neg (by omega), ih vs (fun x hx => hw x (by simp [hx])) (spaces + 1) hat.1 (by omega) hv]
    congr 1; omega

end Bytes

theorem joinSp_eq_flatMap (as : List (List Byte)) (w : List Byte) (bs : List (List Byte)) :
    joinSp (as ++ w :: bs) = spaced as ++ w ++ bs.flatMap (sp :: ·) := by
  rw [joinSp_append as (by simp), List.append_assoc]
  congr 1
  induction bs generalizing w with
  | nil => simp [joinSp]
  | cons b bs ih => rw [joinSp_cons (by simp), ih b, List.flatMap_cons]; simp

/-- **C32** (back_to).  `back_to(gram, k)` is the word `k` places before the last one, for every `k ≥ 1` that leaves at least one non-empty word before it. -/
theorem C32_back_to {m : Mem} {off k : Nat} {ws : List (List Byte)} (hat : At m off (joinSp ws)) (hw : ∀ w ∈ ws, Spec.IsWord w ∧ w ≠ [])
    (hk : 1 ≤ k) (hlen : k + 2 ≤ ws.length) :
    Bytes.backTo m (off, off + (joinSp ws).length) k = (wordRanges off ws)[ws.length - 1 - k]? := by
  obtain ⟨r, hr⟩ : ∃ r, (wordRanges off ws)[ws.length - 1 - k]? = some r :=
    ⟨_, List.getElem?_eq_getElem (by rw [wordRanges_length]; omega)⟩
  rw [hr]
  obtain ⟨as, w, bs, rfl, has, rfl⟩ := wordRanges_get hr
  simp only [List.length_append, List.length_cons] at hlen has
  have hbs : bs.length = k := by omega
  have hane : as ≠ [] := by rintro rfl; simp only [List.length_nil] at hlen; omega
  obtain ⟨b, bs', rfl⟩ : ∃ b bs', bs = b :: bs' := by
    cases bs with
    | nil => simp at hbs; omega
    | cons b bs' => exact ⟨b, bs', rfl⟩
  have hsa := spaced_eq hane
  have hj : 0 < (joinSp as).length := by
    cases as with
    | nil => exact absurd rfl hane
    | cons a l =>
      have := List.length_pos_iff.2 (hw a (by simp)).2
      by_cases hl : l = []
      · subst hl; exact this
      · rw [joinSp_length_cons hl]; omega
  have hlast : 0 < ((b :: bs').getLast (by simp)).length :=
    List.length_pos_iff.2 (hw _ (by simp only [List.mem_append, List.mem_cons]; exact .inr (.inr (List.mem_cons.1 (List.getLast_mem _))))).2
  rw [joinSp_eq_flatMap, hsa, List.flatMap_cons] at hat ⊢
  simp only [At.append, At.cons, List.length_append, List.length_cons, List.cons_append, List.length_nil, Nat.zero_add] at hat ⊢
  generalize hJ : (joinSp as).length = J at *
  generalize hL : (bs'.flatMap (sp :: ·)).length = L at *
  obtain ⟨⟨⟨-, hsp, -⟩, hatw⟩, hsp2, hatb, hatL⟩ := hat
  unfold Bytes.backTo
  simp only [show off + (J + 1 + w.length + (b.length + L + 1)) = off + (J + w.length + b.length + L + 1) + 1 by omega, Bytes.dec_succ, Option.bind_some]
  rw [if_neg (by omega), Nat.add_sub_cancel_left]
  -- the words after the space that follows `w`
  have h1 : Bytes.backToLoop m off k (J + w.length + b.length + 1 + L) 0 (off + (J + w.length + b.length + L + 1)) =
      Bytes.backToLoop m off k (J + w.length + b.length + 1) (0 + bs'.length) (off + (J + w.length + b.length + L + 1)) := by
    rw [← hL]
    refine Bytes.backToLoop_words bs' (fun x hx => (hw x (by simp [hx])).1) _ _ _ ?_ (by simp at hbs; omega)
    rw [show off + (J + w.length + b.length + 1 + 1) = off + (J + 1 + w.length) + 1 + b.length by omega]
    exact hatL
  have h2 : Bytes.backToLoop m off k (J + w.length + 1 + b.length) (0 + bs'.length) (off + (J + w.length + b.length + L + 1)) =
      Bytes.backToLoop m off k (J + w.length + 1) (0 + bs'.length) (off + (J + w.length + b.length + L + 1)) :=
    Bytes.backToLoop_word (hw b (by simp)).1 _ _ _ (by
      rw [show off + (J + w.length + 1 + 1) = off + (J + 1 + w.length) + 1 by omega]; exact hatb)
  have hbl : bs'.length + 1 = k := by simpa using hbs
  have h3 : Bytes.backToLoop m off k (J + w.length + 1) (0 + bs'.length) (off + (J + w.length + b.length + L + 1)) =
      Bytes.backToLoop m off k (J + w.length) k (off + (J + w.length + 1)) := by
    rw [Bytes.backToLoop, show off + (J + w.length + 1) = off + (J + 1 + w.length) by omega, hsp2, Option.bind_some, if_pos rfl,
      if_neg (by omega), if_pos (by omega), show 0 + bs'.length + 1 = k by omega]
  have h4 : Bytes.backToLoop m off k (J + w.length) k (off + (J + w.length + 1)) =
      Bytes.backToLoop m off k J k (off + (J + w.length + 1)) :=
    Bytes.backToLoop_word (hw w (by simp)).1 _ _ _ (by
      rw [show off + (J + 1) = off + (J + 1) from rfl]; exact hatw)
  have h5 : Bytes.backToLoop m off k J k (off + (J + w.length + 1)) = some (off + J, off + (J + w.length + 1)) := by
    obtain ⟨j, hj'⟩ : ∃ j, J = j + 1 := ⟨J - 1, by omega⟩
    rw [hj'] at hsp ⊢
    rw [Bytes.backToLoop, hsp, Option.bind_some, if_pos rfl, if_pos rfl, if_neg (by omega)]
  rw [show J + w.length + b.length + L + 1 = J + w.length + b.length + 1 + L by omega] at h1 h2 h3 ⊢
  rw [h1, show J + w.length + b.length + 1 = J + w.length + 1 + b.length by omega] 
  rw [show J + w.length + b.length + 1 + L = J + w.length + 1 + b.length + L by omega] at h2 h3
  rw [h2, h3, h4, h5, Option.map_some]
  congr 2 <;> omega

/-- C32, defect: when the word asked for is the first one, `back_to` loses its first byte (the comment above the function promises `X`).  The library
never asks for it: remapping by `k` words applies to n-grams of at least `k + 2` words. -/
theorem C32_back_to_first_word_defect :
    let m : Mem := joinSp [[65#8, 66#8], [67#8]]
    Bytes.backTo m (0, 4) 1 = some (1, 2) ∧ (wordRanges 0 [[65#8, 66#8], [67#8]])[0]? = some (0, 2) := by
  decide +kernel

namespace Bytes

theorem toLoop_word {m : Mem} {k : Nat} {w : List Byte} (hw : Spec.IsWord w) (n p spaces b : Nat) (hat : At m p w) :
    toLoop m k (w.length + n) p spaces b = toLoop m k n (p + w.length) spaces b := by
  induction w generalizing p with
  | nil => rw [List.length_nil, Nat.zero_add, Nat.add_zero]
  | cons c w ih =>
    rw [At.cons] at hat
    rw [List.length_cons, show w.length + 1 + n = w.length + n + 1 by omega, toLoop, hat.1, Option.bind_some, if_neg (hw c (by simp)).1,
      ih (fun x hx => hw x (by simp [hx])) _ hat.2]
    congr 1; omega

theorem toLoop_words {m : Mem} {k : Nat} (ws : List (List Byte)) (hw : ∀ w ∈ ws, Spec.IsWord w) (n p spaces b : Nat) (hat : At m p (spaced ws))
    (hs : spaces + ws.length ≤ k) :
    toLoop m k ((spaced ws).length + n) p spaces b =
      toLoop m k n (p + (spaced ws).length) (spaces + ws.length) (if ws ≠ [] ∧ spaces + ws.length = k then p + (spaced ws).length else b) := by
  induction ws generalizing p spaces b with
  | nil => simp [spaced]
  | cons w ws ih =>
    rw [spaced_cons] at hat ⊢
    rw [At.append, At.cons] at hat
    simp only [List.length_append, List.length_cons] at hs ⊢
    rw [show w.length + ((spaced ws).length + 1) + n = w.length + ((spaced ws).length + n + 1) by omega,
      toLoop_word (hw w (by simp)) _ _ _ _ hat.1, toLoop, hat.2.1, Option.bind_some, if_pos rfl, if_neg (by omega),
      ih (fun x hx => hw x (by simp [hx])) _ _ _ hat.2.2 (by omega),
      show p + w.length + 1 + (spaced ws).length = p + (w.length + ((spaced ws).length + 1)) by omega,
      show spaces + 1 + ws.length = spaces + (ws.length + 1) by omega]
    congr 1
    by_cases h1 : spaces + (ws.length + 1) = k
    · rw [if_pos (⟨by simp, h1⟩ : w :: ws ≠ [] ∧ _)]
      by_cases h2 : ws = []
      · subst h2
        rw [if_neg (by simp), if_pos (by simpa using h1)]
        simp [spaced]; omega
      · rw [if_pos ⟨h2, h1⟩]
    · rw [if_neg (c := ws ≠ [] ∧ _) (fun h => h1 h.2), if_neg (c := w :: ws ≠ [] ∧ _) (fun h => h1 h.2), if_neg (by omega)]

end Bytes

/-- **C32** (to).  `to(gram, k)` is the word number `k` (from 0) of the n-gram, for `k ≥ 1`. -/
theorem C32_to {m : Mem} {off k : Nat} {ws : List (List Byte)} (hat : At m off (joinSp ws)) (hw : ∀ w ∈ ws, Spec.IsWord w) (hk : 1 ≤ k)
    (hlen : k < ws.length) : Bytes.toWord m (off, off + (joinSp ws).length) k = (wordRanges off ws)[k]? := by
  obtain ⟨r, hr⟩ : ∃ r, (wordRanges off ws)[k]? = some r := ⟨_, List.getElem?_eq_getElem (by rw [wordRanges_length]; omega)⟩
  rw [hr]
  obtain ⟨as, w, bs, rfl, has, rfl⟩ := wordRanges_get hr
  have hane : as ≠ [] := by rintro rfl; simp at has; omega
  rw [joinSp_eq_flatMap, List.append_assoc, At.append, At.append] at hat
  have hend : Bytes.toLoop m k (bs.flatMap (sp :: ·)).length (off + (spaced as).length + w.length) k (off + (spaced as).length) =
      some (off + (spaced as).length + w.length, off + (spaced as).length) := by
    cases bs with
    | nil => rfl
    | cons b bs =>
      rw [List.flatMap_cons, List.cons_append, At.cons] at hat
      rw [List.flatMap_cons, List.cons_append, List.length_cons, Bytes.toLoop, hat.2.2.1, Option.bind_some, if_pos rfl, if_pos rfl, if_neg (by omega)]
  unfold Bytes.toWord
  show (Bytes.toLoop m k (off + _ - off) off 0 off).map _ = _
  rw [Nat.add_sub_cancel_left, joinSp_eq_flatMap, List.append_assoc, List.length_append, Bytes.toLoop_words as (fun x hx => hw x (by simp [hx])) _ _ _ _ hat.1 (by omega),
    if_pos ⟨hane, by omega⟩, List.length_append, Bytes.toLoop_word (hw w (by simp)) _ _ _ _ hat.2.1, show 0 + as.length = k by omega, hend]
  rfl

/-- The hypotheses of C32 are met by "ab c d e". -/
example : let ws : List (List Byte) := [[97#8, 98#8], [99#8], [100#8], [101#8]]
    At (joinSp ws) 0 (joinSp ws) ∧ (∀ w ∈ ws, Spec.IsWord w ∧ w ≠ []) ∧ 2 + 2 ≤ ws.length ∧
    Bytes.backTo (joinSp ws) (0, 8) 2 = some (3, 4) ∧ Bytes.next (joinSp ws) (3, 4) = some (5, 6) ∧ Bytes.toWord (joinSp ws) (0, 8) 2 = some (5, 6) ∧
    Bytes.prev (joinSp ws) (5, 6) = some (3, 4) ∧ Bytes.predecessor (joinSp ws) (0, 8) = some (0, 6) ∧ Bytes.suffix (joinSp ws) (0, 8) = some (3, 8) := by
  refine ⟨List.prefix_refl _, ?_, by decide, by decide +kernel, by decide +kernel, by decide +kernel, by decide +kernel, by decide +kernel, by decide +kernel⟩
  intro w hw
  simp at hw
  rcases hw with rfl | rfl | rfl | rfl <;> simp [Spec.IsWord, sp, nl]

end Tongrams
