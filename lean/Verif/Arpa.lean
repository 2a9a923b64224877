import Verif.Parsers
import Verif.Score

/-!
# Reading ARPA files

`parse_prob_backoff_line`, `arpa_parser` (include/utils/parsers.hpp) and `arpa_iterator` (include/utils/iterators.hpp), as the builders of the backoff models
use them.  `std::strtod` is a parameter; `std::abort()` in `expect` and thrown exceptions are `Except.error ()`; a loop that would not end is `none`.
-/
set_option linter.unusedSectionVars false

namespace Tongrams

/-- The bytes of a literal. -/
def str (s : String) : List Byte := s.toList.map fun c => BitVec.ofNat 8 c.toNat

section
variable {F : Type} [Zero F] [LT F] [DecidableLT F]

/-- `parse_prob_backoff_line` (include/utils/parsers.hpp:31-58).  `strtod` gets the bytes from the pointer to the end of the line, and gives the value and the
number of bytes used. -/
def parseProbLine (strtod : List Byte → F × Nat) (line : Mem) : Option (List Byte × F × F) :=
  let r := strtod line
  let prob := if 0 < r.1 then 0 else r.1
  let first := r.2 + 1
  if line.length < first then none else
  (Bytes.findFwd line (· == tab) (line.length - first) first).map fun pos =>
    (slice line (first, pos), prob, if pos ≠ line.length then (strtod (line.drop pos)).1 else 0)

/-- The state of `arpa_parser` (parsers.hpp:206-212): the stream and the current line. -/
structure ArpaParser where
  is : IStream
  line : List Byte

namespace ArpaParser

/-- The constructor (parsers.hpp:97-105). -/
def new (file : List Byte) : ArpaParser := ⟨⟨file, false⟩, []⟩

/-- `read_line` (parsers.hpp:156-164); it returns whether the line is non-empty. -/
def readLine (p : ArpaParser) : ArpaParser := let r := getline p.is p.line; ⟨r.1, r.2⟩

/-- `skip_blanklines` (parsers.hpp:176-180). -/
def skipBlank : Nat → ArpaParser → Option ArpaParser
  | 0, _ => none
  | n + 1, p => if p.line = [] then skipBlank n p.readLine else some p

/-- `expect` (parsers.hpp:195-203). -/
def expect (s : List Byte) (p : ArpaParser) : Except Unit Unit := if p.line ≠ s then .error () else .ok ()

/-- The loop of `read_header` (parsers.hpp:112-121), with the line after the first `read_line`; `i` is the number of the next count. -/
def headerLoop : Nat → Nat → List Nat → ArpaParser → Res (List Nat × ArpaParser)
  | 0, _, _, _ => none
  | n + 1, i, counts, p =>
    Res.bind (Res.lift (Bytes.splitUpon (p.line ++ [0#8]) 61#8)) fun br =>
    let count := strtoull (p.line.drop (br.2 + 1))
    Res.bind (some (p.expect (str "ngram " ++ decimal i ++ str "=" ++ decimal count.toNat))) fun _ =>
    let counts := counts ++ [count.toNat]
    let p := p.readLine
    if p.line ≠ [] then headerLoop n (i + 1) counts p else some (.ok (counts, p))

/-- `read_header` (parsers.hpp:107-127). -/
def readHeader (fuel : Nat) (p : ArpaParser) : Res (List Nat × ArpaParser) :=
  Res.bind (Res.lift (p.skipBlank fuel)) fun p =>
  Res.bind (some (p.expect (str "\\data\\"))) fun _ =>
  Res.bind (headerLoop fuel 1 [] p.readLine) fun r =>
  Res.bind (Res.lift (r.2.skipBlank fuel)) fun p => some (.ok (r.1, p))

/-- The loop of `read_values` (parsers.hpp:138-151), before the selection of the backoffs. -/
def valuesLoop (strtod : List Byte → F × Nat) : Nat → ArpaParser → Option (List (F × F) × ArpaParser)
  | 0, p => some ([], p)
  | n + 1, p => let p := p.readLine
    (parseProbLine strtod p.line).bind fun r => (valuesLoop strtod n p).map fun x => ((r.2.1, r.2.2) :: x.1, x.2)

/-- `read_values` (parsers.hpp:129-154): the probabilities and backoffs of a section, its offset (`tellg`, of a file of `size` bytes), and the parser.
(That 0 backoffs of orders above 1 are dropped is in `Quant.codebooks`.) -/
def readValues (strtod : List Byte → F × Nat) (fuel size order n : Nat) (p : ArpaParser) : Res ((List (F × F) × Nat) × ArpaParser) :=
  Res.bind (Res.lift (p.skipBlank fuel)) fun p =>
  Res.bind (some (p.expect (str "\\" ++ decimal order ++ str "-grams:"))) fun _ =>
  let offset := size - p.is.rest.length
  Res.lift ((valuesLoop strtod n p).map fun x => ((x.1, offset), x.2.readLine))

/-- The sections `ord, ord + 1, ...` read one after the other (trie_prob_lm.hpp:45-66, mph_prob_lm.hpp:40-59), `counts` from this order on. -/
def readSections (strtod : List Byte → F × Nat) (fuel size : Nat) : Nat → List Nat → ArpaParser → Res (List (List (F × F) × Nat) × ArpaParser)
  | _, [], p => some (.ok ([], p))
  | ord, n :: counts, p => Res.bind (p.readValues strtod fuel size ord n) fun v =>
    Res.bind (readSections strtod fuel size (ord + 1) counts v.2) fun vs => some (.ok (v.1 :: vs.1, vs.2))

/-- `parse_eof` (parsers.hpp:182-185). -/
def parseEof (p : ArpaParser) : Except Unit Unit := p.readLine.expect (str "\\end\\")

end ArpaParser

/-- The first pass of the builders over an ARPA file (trie_prob_lm.hpp:36-69, mph_prob_lm.hpp:31-62): for each order up to the one asked for, its probabilities
and backoffs, and the offset of the section. -/
def arpaFirstPass (strtod : List Byte → F × Nat) (file : List Byte) (order : Nat) : Res (List (List (F × F) × Nat)) :=
  let fuel := file.length + 2
  Res.bind ((ArpaParser.new file).readHeader fuel) fun r =>
  if order > r.1.length then some (.error ()) else
  Res.bind (r.2.readSections strtod fuel file.length 1 (r.1.take order)) fun vs =>
  Res.bind (some vs.2.parseEof) fun _ => some (.ok vs.1)

/-- `n` calls of `arpa_iterator::next` (include/utils/iterators.hpp:84-87). -/
def arpaNexts (strtod : List Byte → F × Nat) : Nat → ArpaParser → Option (List (List Byte × F × F))
  | 0, _ => some []
  | n + 1, p => let p := p.readLine
    (parseProbLine strtod p.line).bind fun r => (arpaNexts strtod n p).map (r :: ·)

/-- The second pass of the builders over a section: an `arpa_iterator` (iterators.hpp:66-92) of this order and offset, with `num_grams` calls of `next`
(trie_prob_lm.hpp:143-156, 204-217, mph_prob_lm.hpp:72-80, 141-154). -/
def arpaSection (strtod : List Byte → F × Nat) (file : List Byte) (order offset : Nat) : Res (List (List Byte × F × F)) :=
  Res.bind ((ArpaParser.new file).readHeader (file.length + 2)) fun r =>
  Res.bind (Res.lift (r.1[order - 1]?)) fun n =>
  if order > r.1.length then some (.error ()) else
  Res.lift (arpaNexts strtod n { r.2 with is := ⟨file.drop offset, false⟩ })

end

/-! ## Specification -/

/-- A line of a section: the text of the log-probability, the n-gram, perhaps the text of the backoff; and the numbers these texts stand for. -/
structure Spec.ArpaLine (F : Type) where
  probText : List Byte
  gram : List Byte
  backoffText : Option (List Byte)
  prob : F
  backoff : F

/-- The text of the backoff, if there is one, comes after a tab. -/
def Spec.backoffPart : Option (List Byte) → List Byte
  | none => []
  | some t => tab :: t

/-- The text of the line. -/
def Spec.ArpaLine.text {F : Type} (l : Spec.ArpaLine F) : List Byte := l.probText ++ tab :: (l.gram ++ Spec.backoffPart l.backoffText)

/-- What the line says: positive log-probabilities count as 0, a missing backoff is 0. -/
def Spec.ArpaLine.record {F : Type} [Zero F] [LT F] [DecidableLT F] (l : Spec.ArpaLine F) : List Byte × F × F :=
  (l.gram, if 0 < l.prob then 0 else l.prob, match l.backoffText with | none => 0 | some _ => l.backoff)

/-- The line is well formed: no stray tabs or newlines, and `strtod` reads the numbers. -/
structure Spec.ArpaLine.Good {F : Type} (strtod : List Byte → F × Nat) (l : Spec.ArpaLine F) : Prop where
  gram : tab ∉ l.gram
  oneLine : nl ∉ l.text
  prob : ∀ rest, strtod (l.probText ++ tab :: rest) = (l.prob, l.probText.length)
  backoff : ∀ t, l.backoffText = some t → (strtod (tab :: t)).1 = l.backoff

/-- Blank lines. -/
def Spec.blank (n : Nat) : List Byte := List.replicate n nl

/-- The lines that announce the number of n-grams of each order, from order `i` on. -/
def Spec.countLines : Nat → List Nat → List Byte
  | _, [] => []
  | i, c :: cs => str "ngram " ++ decimal i ++ str "=" ++ decimal c ++ nl :: Spec.countLines (i + 1) cs

/-- The lines of a section. -/
def Spec.sectionLines {F : Type} (lines : List (Spec.ArpaLine F)) : List Byte := lines.flatMap fun l => l.text ++ [nl]

/-- The sections from order `i` on, each followed by the given number of blank lines. -/
def Spec.sectionsText {F : Type} : Nat → List (List (Spec.ArpaLine F) × Nat) → List Byte
  | _, [] => []
  | i, s :: ss => str "\\" ++ decimal i ++ str "-grams:" ++ nl :: (Spec.sectionLines s.1 ++ (Spec.blank s.2 ++ Spec.sectionsText (i + 1) ss))

/-- An ARPA file: `lead` blank lines, `\data\`, the counts, `1 + gap` blank lines, the sections (each with the number of blank lines after it), `\end\`. -/
def Spec.arpaText {F : Type} (lead gap : Nat) (sections : List (List (Spec.ArpaLine F) × Nat)) (tail : List Byte) : List Byte :=
  Spec.blank lead ++ (str "\\data\\" ++ nl :: (Spec.countLines 1 (sections.map (·.1.length)) ++ (nl :: (Spec.blank gap ++
    (Spec.sectionsText 1 sections ++ (str "\\end\\" ++ tail))))))

/-- A well-formed ARPA file: at least one section; numbers of n-grams that fit in 64 bits; well-formed lines; exactly one blank line before `\end\`, which is
the last line or is followed by a newline. -/
structure Spec.GoodArpa {F : Type} (strtod : List Byte → F × Nat) (sections : List (List (Spec.ArpaLine F) × Nat)) (tail : List Byte) : Prop where
  nonempty : sections ≠ []
  counts : ∀ s ∈ sections, s.1.length < 2 ^ 64
  lines : ∀ s ∈ sections, ∀ l ∈ s.1, l.Good strtod
  last : ∀ s, sections.getLast? = some s → s.2 = 1
  tail : tail = [] ∨ ∃ t, tail = nl :: t

/-! ## Proofs -/

section
variable {F : Type} [Zero F] [LT F] [DecidableLT F] {strtod : List Byte → F × Nat}

theorem parseProbLine_ok {l : Spec.ArpaLine F} (h : l.Good strtod) : parseProbLine strtod l.text = some l.record := by
  unfold parseProbLine
  have e1 : strtod l.text = (l.prob, l.probText.length) := h.prob _
  rw [e1]
  simp only
  obtain ⟨pt, g, bt, p, b⟩ := l
  obtain ⟨h1, h2, h3, h4⟩ := h
  simp only [Spec.ArpaLine.text] at *
  have hlen : ¬ (pt ++ tab :: (g ++ Spec.backoffPart bt)).length < pt.length + 1 := by simp
  rw [if_neg hlen]
  have hget : ∀ i, (hi : i < g.length) → (pt ++ tab :: (g ++ Spec.backoffPart bt))[pt.length + 1 + i]? = some g[i] := by
    intro i hi
    rw [List.getElem?_append_right (by omega), show pt.length + 1 + i - pt.length = i + 1 by omega, List.getElem?_cons_succ,
      List.getElem?_append_left hi, List.getElem?_eq_getElem hi]
  rw [Bytes.findFwd_spec (q := pt.length + 1 + g.length) (by omega) (by simp; omega) (by
    intro i hi hi'
    refine ⟨g[i - (pt.length + 1)], ?_, ?_⟩
    · rw [← hget (i - (pt.length + 1)) (by omega)]; congr 1; omega
    · simp only [beq_eq_false_iff_ne]; intro e; exact h1 (e ▸ List.getElem_mem _)) (by
    cases bt with
    | none => left; simp [Spec.backoffPart]; omega
    | some t => right; refine ⟨tab, ?_, by simp⟩; rw [List.getElem?_append_right (by omega)]; simp [Spec.backoffPart, show pt.length + 1 + g.length - pt.length = g.length + 1 by omega])]
  simp only [Option.map_some, Spec.ArpaLine.record]
  refine congrArg some (Prod.ext ?_ (Prod.ext rfl ?_))
  · simp only [slice]
    rw [List.drop_append, List.drop_of_length_le (by omega)]
    simp [show pt.length + 1 - pt.length = 1 by omega, show pt.length + 1 + g.length - (pt.length + 1) = g.length by omega]
  · cases bt with
    | none => simp [Spec.backoffPart]; intro hc; exact absurd (by omega) hc
    | some t =>
      simp only [Spec.backoffPart]
      refine (if_pos (by simp; omega)).trans ?_
      rw [← h4 t rfl]
      rw [List.drop_append, List.drop_of_length_le (by omega), show pt.length + 1 + g.length - pt.length = g.length + 1 by omega]
      simp

namespace ArpaParser

theorem readLine_line {l rest line : List Byte} (h : nl ∉ l) : readLine ⟨⟨l ++ nl :: rest, false⟩, line⟩ = ⟨⟨rest, false⟩, l⟩ := by
  unfold readLine
  rw [getline_line h]

theorem skipBlank_nonempty {p : ArpaParser} (h : p.line ≠ []) (n : Nat) : p.skipBlank (n + 1) = some p := by
  rw [skipBlank, if_neg h]

theorem skipBlank_ok : ∀ (b n : Nat) {l rest : List Byte}, nl ∉ l → l ≠ [] → b + 2 ≤ n →
    skipBlank n ⟨⟨Spec.blank b ++ (l ++ nl :: rest), false⟩, []⟩ = some ⟨⟨rest, false⟩, l⟩ := by
  intro b
  induction b with
  | zero =>
    intro n l rest h h' hn
    obtain ⟨n, rfl⟩ := Nat.exists_eq_add_of_le hn
    rw [show 0 + 2 + n = (n + 1) + 1 by omega, skipBlank, if_pos rfl]
    show skipBlank (n + 1) (readLine ⟨⟨l ++ nl :: rest, false⟩, []⟩) = _
    rw [readLine_line h, skipBlank_nonempty h']
  | succ b ih =>
    intro n l rest h h' hn
    obtain ⟨n, rfl⟩ := Nat.exists_eq_add_of_le hn
    rw [show b + 1 + 2 + n = (b + 2 + n) + 1 by omega, skipBlank, if_pos rfl]
    have : Spec.blank (b + 1) ++ (l ++ nl :: rest) = [] ++ nl :: (Spec.blank b ++ (l ++ nl :: rest)) := by
      simp [Spec.blank, List.replicate_succ]
    rw [this, readLine_line (by simp)]
    exact ih _ h h' (by omega)

theorem expect_ok {s : List Byte} {p : ArpaParser} (h : p.line = s) : p.expect s = .ok () := by
  rw [expect, if_neg (by simp [h])]

theorem expect_self (is : IStream) (s : List Byte) : expect s ⟨is, s⟩ = .ok () := expect_ok rfl

theorem countLine_clean (i c : Nat) : nl ∉ str "ngram " ++ decimal i ++ str "=" ++ decimal c := by
  simp only [List.mem_append, not_or]
  exact ⟨⟨⟨by decide, decimal_no (by decide)⟩, by decide⟩, decimal_no (by decide)⟩

theorem splitUpon_ok {a b : List Byte} {c : Byte} (h : c ∉ a) : Bytes.splitUpon (a ++ c :: b) c = some (0, a.length) := by
  unfold Bytes.splitUpon
  rw [Bytes.scanFwd_spec (q := a.length) (Nat.zero_le _) (by simp)
    (fun i _ hi => ⟨a[i], by rw [List.getElem?_append_left hi, List.getElem?_eq_getElem hi], by
      simp only [beq_eq_false_iff_ne]; intro e; exact h (e ▸ List.getElem_mem hi)⟩) ⟨c, by simp, by simp⟩]
  rfl

/-- One round of the loop of `read_header`. -/
theorem headerLoop_step (n i : Nat) (done : List Nat) (c : Nat) (is : IStream) (hc : c < 2 ^ 64) :
    headerLoop (n + 1) i done ⟨is, str "ngram " ++ decimal i ++ str "=" ++ decimal c⟩ =
      (let p := readLine ⟨is, str "ngram " ++ decimal i ++ str "=" ++ decimal c⟩
       if p.line ≠ [] then headerLoop n (i + 1) (done ++ [c]) p else some (.ok (done ++ [c], p))) := by
  rw [headerLoop]
  have e1 : str "ngram " ++ decimal i ++ str "=" ++ decimal c ++ [0#8] = (str "ngram " ++ decimal i) ++ 61#8 :: (decimal c ++ [0#8]) := by
    simp [str]
  have e2 : Bytes.splitUpon (str "ngram " ++ decimal i ++ str "=" ++ decimal c ++ [0#8]) 61#8 = some (0, (str "ngram " ++ decimal i).length) := by
    rw [e1]
    apply splitUpon_ok
    simp only [List.mem_append, not_or]
    exact ⟨by decide, decimal_no (by decide)⟩
  have e3 : (str "ngram " ++ decimal i ++ str "=" ++ decimal c).drop ((str "ngram " ++ decimal i).length + 1) = decimal c := by
    rw [show str "=" = [61#8] by decide, List.append_assoc _ [61#8], List.drop_append, List.drop_of_length_le (by omega)]
    simp [show ∀ a b : Nat, a + b + 1 - (a + b) = 1 by omega]
  have e4 : strtoull (decimal c) = BitVec.ofNat 64 c := by
    have := strtoull_decimal c (rest := []) rfl hc
    simpa using this
  simp only [e2, Res.lift_some, Res.bind_ok, e3, e4, BitVec.toNat_ofNat, Nat.mod_eq_of_lt hc]
  rw [expect_self, Res.bind_ok]

theorem headerLoop_ok : ∀ (cs : List Nat) (n i : Nat) (done : List Nat) (c : Nat) (rest : List Byte), (∀ x ∈ c :: cs, x < 2 ^ 64) → cs.length + 1 ≤ n →
    headerLoop n i done ⟨⟨Spec.countLines (i + 1) cs ++ nl :: rest, false⟩, str "ngram " ++ decimal i ++ str "=" ++ decimal c⟩ =
      some (.ok (done ++ c :: cs, ⟨⟨rest, false⟩, []⟩)) := by
  intro cs
  induction cs with
  | nil =>
    intro n i done c rest hc hn
    obtain ⟨n, rfl⟩ := Nat.exists_eq_add_of_le hn
    rw [show ([] : List Nat).length + 1 + n = n + 1 by simp; omega, headerLoop_step _ _ _ _ _ (hc c (by simp))]
    rw [show Spec.countLines (i + 1) [] ++ nl :: rest = [] ++ nl :: rest from rfl, readLine_line (by simp)]
    simp
  | cons c' cs ih =>
    intro n i done c rest hc hn
    obtain ⟨n, rfl⟩ := Nat.exists_eq_add_of_le hn
    rw [show (c' :: cs).length + 1 + n = (cs.length + 1 + n) + 1 by simp; omega, headerLoop_step _ _ _ _ _ (hc c (by simp))]
    have e : Spec.countLines (i + 1) (c' :: cs) ++ nl :: rest =
        (str "ngram " ++ decimal (i + 1) ++ str "=" ++ decimal c') ++ nl :: (Spec.countLines (i + 2) cs ++ nl :: rest) := by
      simp [Spec.countLines]
    rw [e, readLine_line (countLine_clean _ _)]
    simp only
    rw [if_pos (by simp [str]), ih _ _ _ _ _ (fun x hx => hc x (by simp at hx ⊢; tauto)) (by omega)]
    simp

theorem gramsLine_clean (i : Nat) : nl ∉ str "\\" ++ decimal i ++ str "-grams:" := by
  simp only [List.mem_append, not_or]
  exact ⟨⟨by decide, decimal_no (by decide)⟩, by decide⟩

theorem gramsLine_ne (i : Nat) : str "\\" ++ decimal i ++ str "-grams:" ≠ [] := by simp [str]

theorem readHeader_ok (lead gap fuel : Nat) (cs : List Nat) (c : Nat) (rest line : List Byte) (hc : ∀ x ∈ c :: cs, x < 2 ^ 64) (hl : nl ∉ line)
    (hne : line ≠ []) (hf : lead + gap + cs.length + 3 ≤ fuel) :
    readHeader fuel (new (Spec.blank lead ++ (str "\\data\\" ++ nl :: (Spec.countLines 1 (c :: cs) ++ (nl :: (Spec.blank gap ++ (line ++ nl :: rest))))))) =
      some (.ok (c :: cs, ⟨⟨rest, false⟩, line⟩)) := by
  unfold readHeader new
  rw [skipBlank_ok lead fuel (by decide) (by decide) (by omega), Res.lift_some, Res.bind_ok, expect_self, Res.bind_ok]
  have e : ∀ r, Spec.countLines 1 (c :: cs) ++ r = (str "ngram " ++ decimal 1 ++ str "=" ++ decimal c) ++ nl :: (Spec.countLines 2 cs ++ r) := by
    intro r; simp [Spec.countLines]
  rw [e, readLine_line (countLine_clean _ _), headerLoop_ok cs fuel 1 [] c _ hc (by omega), Res.bind_ok]
  simp only
  rw [skipBlank_ok gap fuel hl hne (by omega)]
  rfl

theorem valuesLoop_ok : ∀ (lines : List (Spec.ArpaLine F)) (rest line : List Byte), (∀ l ∈ lines, l.Good strtod) →
    ∃ line', valuesLoop strtod lines.length ⟨⟨Spec.sectionLines lines ++ rest, false⟩, line⟩ =
      some (lines.map (fun l => l.record.2), ⟨⟨rest, false⟩, line'⟩) := by
  intro lines
  induction lines with
  | nil => intro rest line _; exact ⟨line, rfl⟩
  | cons l ls ih =>
    intro rest line h
    obtain ⟨line', e⟩ := ih rest l.text fun x hx => h x (by simp [hx])
    refine ⟨line', ?_⟩
    have e' : Spec.sectionLines (l :: ls) ++ rest = l.text ++ nl :: (Spec.sectionLines ls ++ rest) := by simp [Spec.sectionLines]
    rw [List.length_cons, valuesLoop, e', readLine_line (h l (by simp)).oneLine]
    simp only
    rw [parseProbLine_ok (h l (by simp)), Option.bind_some, e]
    rfl

theorem arpaNexts_ok : ∀ (lines : List (Spec.ArpaLine F)) (rest line : List Byte), (∀ l ∈ lines, l.Good strtod) →
    arpaNexts strtod lines.length ⟨⟨Spec.sectionLines lines ++ rest, false⟩, line⟩ = some (lines.map (·.record)) := by
  intro lines
  induction lines with
  | nil => intro rest line _; rfl
  | cons l ls ih =>
    intro rest line h
    have e' : Spec.sectionLines (l :: ls) ++ rest = l.text ++ nl :: (Spec.sectionLines ls ++ rest) := by simp [Spec.sectionLines]
    rw [List.length_cons, arpaNexts, e', readLine_line (h l (by simp)).oneLine]
    simp only
    rw [parseProbLine_ok (h l (by simp)), Option.bind_some, ih _ _ fun x hx => h x (by simp [hx])]
    rfl

/-- The line that starts a section. -/
def heading (i : Nat) : List Byte := str "\\" ++ decimal i ++ str "-grams:"

theorem skip_after (b fuel : Nat) {l rest line : List Byte} (hl : nl ∉ l) (hne : l ≠ []) (hf : b + 2 ≤ fuel) :
    (readLine ⟨⟨Spec.blank b ++ (l ++ nl :: rest), false⟩, line⟩).skipBlank fuel = some ⟨⟨rest, false⟩, l⟩ := by
  cases b with
  | zero =>
    obtain ⟨n, rfl⟩ := Nat.exists_eq_add_of_le hf
    show (readLine ⟨⟨l ++ nl :: rest, false⟩, line⟩).skipBlank _ = _
    rw [readLine_line hl, show 0 + 2 + n = (n + 1) + 1 by omega, skipBlank_nonempty hne]
  | succ b =>
    have : Spec.blank (b + 1) ++ (l ++ nl :: rest) = [] ++ nl :: (Spec.blank b ++ (l ++ nl :: rest)) := by
      simp [Spec.blank, List.replicate_succ]
    rw [this, readLine_line (by simp)]
    exact skipBlank_ok b fuel hl hne (by omega)

theorem readValues_ok {lines : List (Spec.ArpaLine F)} {rest : List Byte} {fuel size i : Nat} {p : ArpaParser}
    (hp : p.skipBlank fuel = some ⟨⟨Spec.sectionLines lines ++ rest, false⟩, heading i⟩) (h : ∀ l ∈ lines, l.Good strtod) :
    ∃ line', readValues strtod fuel size i lines.length p =
      some (.ok ((lines.map (fun l => l.record.2), size - (Spec.sectionLines lines ++ rest).length), readLine ⟨⟨rest, false⟩, line'⟩)) := by
  obtain ⟨line', e⟩ := valuesLoop_ok lines rest (heading i) h
  refine ⟨line', ?_⟩
  unfold readValues
  rw [hp, Res.lift_some, Res.bind_ok, show str "\\" ++ decimal i ++ str "-grams:" = heading i from rfl, expect_self, Res.bind_ok]
  simp only
  rw [e]
  rfl

/-- What follows the heading of each section. -/
def tails : Nat → List (List (Spec.ArpaLine F) × Nat) → List Byte → List (List Byte)
  | _, [], _ => []
  | i, s :: ss, e => (Spec.sectionLines s.1 ++ (Spec.blank s.2 ++ (Spec.sectionsText (i + 1) ss ++ e))) :: tails (i + 1) ss e

theorem tails_length : ∀ (ss : List (List (Spec.ArpaLine F) × Nat)) (i : Nat) (e : List Byte), (tails i ss e).length = ss.length := by
  intro ss
  induction ss with
  | nil => intros; rfl
  | cons s ss ih => intro i e; simp [tails, ih]

theorem tails_suffix : ∀ (ss : List (List (Spec.ArpaLine F) × Nat)) (i : Nat) (e : List Byte), ∀ t ∈ tails i ss e, t <:+ Spec.sectionsText i ss ++ e := by
  intro ss
  induction ss with
  | nil => intro i e t ht; simp [tails] at ht
  | cons s ss ih =>
    intro i e t ht
    have hs : Spec.sectionLines s.1 ++ (Spec.blank s.2 ++ (Spec.sectionsText (i + 1) ss ++ e)) <:+ Spec.sectionsText i (s :: ss) ++ e := by
      refine ⟨heading i ++ [nl], ?_⟩
      simp [Spec.sectionsText, heading]
    simp only [tails, List.mem_cons] at ht
    rcases ht with rfl | ht
    · exact hs
    · exact ((ih _ _ t ht).trans ⟨Spec.sectionLines s.1 ++ Spec.blank s.2, by simp⟩).trans hs

theorem tails_get : ∀ (ss : List (List (Spec.ArpaLine F) × Nat)) (i k : Nat) (e : List Byte) (s : List (Spec.ArpaLine F) × Nat), ss[k]? = some s →
    ∃ r, (tails i ss e)[k]? = some (Spec.sectionLines s.1 ++ r) := by
  intro ss
  induction ss with
  | nil => intro i k e s h; simp at h
  | cons a ss ih =>
    intro i k e s h
    cases k with
    | zero => simp at h; subst h; exact ⟨_, rfl⟩
    | succ k => simp at h; obtain ⟨r, hr⟩ := ih (i + 1) k e s h; exact ⟨r, by simpa [tails] using hr⟩

/-- The values read in each section. -/
def values (size : Nat) (i : Nat) (ss : List (List (Spec.ArpaLine F) × Nat)) (e : List Byte) : List (List (F × F) × Nat) :=
  (ss.map fun s => s.1.map fun l => l.record.2).zip ((tails i ss e).map fun t => size - t.length)

theorem readSections_ok {fuel size : Nat} : ∀ (ss : List (List (Spec.ArpaLine F) × Nat)) (i : Nat) (s : List (Spec.ArpaLine F) × Nat) (e : List Byte)
    (p : ArpaParser), p.skipBlank fuel = some ⟨⟨Spec.sectionLines s.1 ++ (Spec.blank s.2 ++ (Spec.sectionsText (i + 1) ss ++ e)), false⟩, heading i⟩ →
    (∀ x ∈ s :: ss, ∀ l ∈ x.1, l.Good strtod) → (∀ x ∈ s :: ss, x.2 + 2 ≤ fuel) →
    ∃ line q, readSections strtod fuel size i ((s :: ss).map (·.1.length)) p = some (.ok (values size i (s :: ss) e, q)) ∧
      q = readLine ⟨⟨Spec.blank (((s :: ss).getLast (by simp)).2) ++ e, false⟩, line⟩ := by
  intro ss
  induction ss with
  | nil =>
    intro i s e p hp h hf
    obtain ⟨line, e1⟩ := readValues_ok (size := size) hp (h s (by simp))
    refine ⟨line, _, ?_, rfl⟩
    simp only [List.map_cons, List.map_nil, readSections]
    rw [e1, Res.bind_ok, Res.bind_ok]
    rfl
  | cons t ss ih =>
    intro i s e p hp h hf
    obtain ⟨line, e1⟩ := readValues_ok (size := size) hp (h s (by simp))
    have e2 : Spec.blank s.2 ++ (Spec.sectionsText (i + 1) (t :: ss) ++ e) =
        Spec.blank s.2 ++ (heading (i + 1) ++ nl :: (Spec.sectionLines t.1 ++ (Spec.blank t.2 ++ (Spec.sectionsText (i + 2) ss ++ e)))) := by
      simp [Spec.sectionsText, heading]
    have e3 := skip_after s.2 fuel (l := heading (i + 1)) (rest := Spec.sectionLines t.1 ++ (Spec.blank t.2 ++ (Spec.sectionsText (i + 2) ss ++ e)))
      (line := line) (gramsLine_clean _) (gramsLine_ne _) (hf s (by simp))
    rw [← e2] at e3
    obtain ⟨line', q, e4, e5⟩ := ih (i + 1) t e _ e3 (fun x hx => h x (by simp at hx ⊢; tauto)) (fun x hx => hf x (by simp at hx ⊢; tauto))
    refine ⟨line', q, ?_, by rw [e5]; simp⟩
    rw [List.map_cons, readSections, e1, Res.bind_ok]
    simp only
    rw [e4, Res.bind_ok]
    rfl

theorem end_line {tail line : List Byte} (h : tail = [] ∨ ∃ t, tail = nl :: t) : (readLine ⟨⟨str "\\end\\" ++ tail, false⟩, line⟩).line = str "\\end\\" := by
  rcases h with rfl | ⟨t, rfl⟩
  · rw [List.append_nil]; rfl
  · rw [readLine_line (by decide)]

theorem blank_length (n : Nat) : (Spec.blank n).length = n := by simp [Spec.blank]

/-- The fuel suffices. -/
theorem sections_length : ∀ (ss : List (List (Spec.ArpaLine F) × Nat)) (i : Nat), ∀ s ∈ ss, s.2 + 2 ≤ (Spec.sectionsText i ss).length := by
  intro ss
  induction ss with
  | nil => intro i s hs; simp at hs
  | cons a ss ih =>
    intro i s hs
    have : (Spec.sectionsText i (a :: ss)).length = (heading i).length + 1 + (Spec.sectionLines a.1).length + a.2 + (Spec.sectionsText (i + 1) ss).length := by
      simp [Spec.sectionsText, heading, blank_length]; omega
    have hh : 2 ≤ (heading i).length := by simp [heading, str]
    simp only [List.mem_cons] at hs
    rcases hs with rfl | hs
    · omega
    · have := ih (i + 1) s hs; omega

theorem countLines_length : ∀ (cs : List Nat) (i : Nat), cs.length ≤ (Spec.countLines i cs).length := by
  intro cs
  induction cs with
  | nil => intro i; simp
  | cons c cs ih => intro i; simp [Spec.countLines]; have := ih (i + 1); omega

theorem header_of_file (lead gap : Nat) (s : List (Spec.ArpaLine F) × Nat) (ss : List (List (Spec.ArpaLine F) × Nat)) (tail : List Byte)
    (h : ∀ x ∈ s :: ss, x.1.length < 2 ^ 64) (fuel : Nat) (hf : (Spec.arpaText lead gap (s :: ss) tail).length ≤ fuel) :
    readHeader fuel (new (Spec.arpaText lead gap (s :: ss) tail)) = some (.ok ((s :: ss).map (·.1.length),
      ⟨⟨Spec.sectionLines s.1 ++ (Spec.blank s.2 ++ (Spec.sectionsText 2 ss ++ (str "\\end\\" ++ tail))), false⟩, heading 1⟩)) := by
  have e : Spec.arpaText lead gap (s :: ss) tail = Spec.blank lead ++ (str "\\data\\" ++ nl :: (Spec.countLines 1 (s.1.length :: ss.map (·.1.length)) ++
      (nl :: (Spec.blank gap ++ (heading 1 ++ nl :: (Spec.sectionLines s.1 ++ (Spec.blank s.2 ++ (Spec.sectionsText 2 ss ++ (str "\\end\\" ++ tail))))))))) := by
    simp [Spec.arpaText, Spec.sectionsText, heading]
  rw [e] at hf ⊢
  have := countLines_length (s.1.length :: ss.map (·.1.length)) 1
  refine readHeader_ok lead gap fuel _ _ _ _ ?_ (gramsLine_clean 1) (gramsLine_ne 1) ?_
  · intro x hx
    simp only [List.mem_cons, List.mem_map] at hx
    rcases hx with rfl | ⟨y, hy, rfl⟩
    · exact h s (by simp)
    · exact h y (by simp [hy])
  · simp [blank_length, heading, str] at hf this ⊢; omega

end ArpaParser

open ArpaParser in
/-- **C43**.  For every well-formed ARPA file (any number of blank lines before `\\data\\`, after the counts and between the sections): building with the order
of the file, the first pass reads in each section exactly the probabilities and backoffs of its lines, and the iterators that the second pass starts at
the offsets noted give exactly the lines: n-gram, log-probability (0 if positive), backoff (0 if missing). -/
theorem C43_arpa_file_is_read (lead gap : Nat) {sections : List (List (Spec.ArpaLine F) × Nat)} {tail : List Byte} (h : Spec.GoodArpa strtod sections tail) :
    ∃ vs, arpaFirstPass strtod (Spec.arpaText lead gap sections tail) sections.length = some (.ok vs) ∧
      vs.map (·.1) = sections.map (fun s => s.1.map fun l => l.record.2) ∧
      ∀ (k : Nat) s v, sections[k]? = some s → vs[k]? = some v →
        arpaSection strtod (Spec.arpaText lead gap sections tail) (k + 1) v.2 = some (.ok (s.1.map (·.record))) := by
  obtain ⟨s, ss, rfl⟩ := List.exists_cons_of_ne_nil h.nonempty
  have hh := header_of_file lead gap s ss tail h.counts (fuel := (Spec.arpaText lead gap (s :: ss) tail).length + 2) (by omega)
  have hsuf : Spec.sectionsText 1 (s :: ss) ++ (str "\\end\\" ++ tail) <:+ Spec.arpaText lead gap (s :: ss) tail := by
    refine ⟨Spec.blank lead ++ (str "\\data\\" ++ nl :: (Spec.countLines 1 ((s :: ss).map (·.1.length)) ++ (nl :: Spec.blank gap))), ?_⟩
    simp [Spec.arpaText]
  have hfuel : ∀ x ∈ s :: ss, x.2 + 2 ≤ (Spec.arpaText lead gap (s :: ss) tail).length + 2 := by
    intro x hx
    have h1 := sections_length (s :: ss) 1 x hx
    have h2 := hsuf.length_le
    simp only [List.length_append] at h2
    omega
  generalize hsize : (Spec.arpaText lead gap (s :: ss) tail).length = size at *
  refine ⟨values size 1 (s :: ss) (str "\\end\\" ++ tail), ?_, ?_, ?_⟩
  · unfold arpaFirstPass
    simp only
    rw [hsize, hh, Res.bind_ok]
    simp only
    rw [if_neg (by simp), List.take_of_length_le (by simp)]
    obtain ⟨line, q, e1, rfl⟩ := readSections_ok (strtod := strtod) (fuel := size + 2) (size := size) ss 1 s (str "\\end\\" ++ tail) _
      (skipBlank_nonempty (gramsLine_ne 1) (size + 1)) h.lines hfuel
    rw [e1, Res.bind_ok]
    have hl := h.last _ (List.getLast?_eq_getLast_of_ne_nil (by simp))
    rw [hl]
    have : Spec.blank 1 ++ (str "\\end\\" ++ tail) = [] ++ nl :: (str "\\end\\" ++ tail) := rfl
    simp only
    rw [this, readLine_line (by simp), parseEof, expect_ok (end_line h.tail), Res.bind_ok]
  · unfold values
    rw [List.map_fst_zip]
    simp [tails_length]
  · intro k x v hx hv
    obtain ⟨r, hr⟩ := tails_get (s :: ss) 1 k (str "\\end\\" ++ tail) x hx
    have hoff : v.2 = size - (Spec.sectionLines x.1 ++ r).length := by
      unfold values at hv
      rw [List.getElem?_zip_eq_some (z := (v.1, v.2))] at hv
      have := hv.2
      rw [List.getElem?_map, hr] at this
      simpa using this.symm
    unfold arpaSection
    rw [hsize, hh, Res.bind_ok]
    have hk : k < (s :: ss).length := (List.getElem?_eq_some_iff.1 hx).1
    have e1 : ((s :: ss).map (·.1.length))[k + 1 - 1]? = some x.1.length := by
      rw [Nat.add_sub_cancel, List.getElem?_map, hx]; rfl
    simp only
    rw [e1, Res.lift_some, Res.bind_ok, if_neg (by simp at hk ⊢; omega)]
    have hdrop : (Spec.arpaText lead gap (s :: ss) tail).drop v.2 = Spec.sectionLines x.1 ++ r := by
      rw [hoff, ← hsize]
      exact (List.suffix_iff_eq_drop.1 ((tails_suffix _ _ _ _ (List.mem_of_getElem? hr)).trans hsuf)).symm
    rw [hdrop, arpaNexts_ok x.1 r _ (h.lines x (List.mem_of_getElem? hx))]
    rfl

theorem sectionsText_append : ∀ (as bs : List (List (Spec.ArpaLine F) × Nat)) (i : Nat),
    Spec.sectionsText i (as ++ bs) = Spec.sectionsText i as ++ Spec.sectionsText (i + as.length) bs := by
  intro as
  induction as with
  | nil => intro bs i; rfl
  | cons a as ih => intro bs i; simp [Spec.sectionsText, ih, Nat.add_assoc, Nat.add_comm 1]

open ArpaParser in
/-- C43, defect.  Building a model of a smaller order than that of the file, which the builders mean to allow (they refuse only larger orders), aborts: after
the last section wanted the parser expects `\\end\\`. -/
theorem C43_smaller_order_aborts_defect (lead gap : Nat) {wanted others : List (List (Spec.ArpaLine F) × Nat)} {tail : List Byte}
    (h : Spec.GoodArpa strtod (wanted ++ others) tail) (hw : wanted ≠ []) (ho : others ≠ []) (hb : ∀ s ∈ wanted, 1 ≤ s.2) :
    arpaFirstPass strtod (Spec.arpaText lead gap (wanted ++ others) tail) wanted.length = some (.error ()) := by
  obtain ⟨s, ss, rfl⟩ := List.exists_cons_of_ne_nil hw
  obtain ⟨t, ts, rfl⟩ := List.exists_cons_of_ne_nil ho
  have hh := header_of_file lead gap s (ss ++ t :: ts) tail h.counts (fuel := (Spec.arpaText lead gap (s :: (ss ++ t :: ts)) tail).length + 2) (by omega)
  have hfuel : ∀ x ∈ s :: ss, x.2 + 2 ≤ (Spec.arpaText lead gap (s :: (ss ++ t :: ts)) tail).length + 2 := by
    intro x hx
    have h1 := sections_length (s :: (ss ++ t :: ts)) 1 x (by simp at hx ⊢; tauto)
    have h2 : (Spec.sectionsText 1 (s :: (ss ++ t :: ts))).length ≤ (Spec.arpaText lead gap (s :: (ss ++ t :: ts)) tail).length := by
      simp only [Spec.arpaText, List.length_append, List.length_cons]; omega
    omega
  unfold arpaFirstPass
  simp only [List.cons_append]
  rw [hh, Res.bind_ok]
  simp only
  rw [if_neg (by simp), show ((s :: (ss ++ t :: ts)).map (·.1.length)).take (s :: ss).length = (s :: ss).map (·.1.length) by
    rw [← List.map_take]; simp]
  rw [sectionsText_append, List.append_assoc]
  obtain ⟨line, q, e1, rfl⟩ := readSections_ok (strtod := strtod) (fuel := (Spec.arpaText lead gap (s :: (ss ++ t :: ts)) tail).length + 2)
    (size := (Spec.arpaText lead gap (s :: (ss ++ t :: ts)) tail).length) ss 1 s (Spec.sectionsText (2 + ss.length) (t :: ts) ++ (str "\\end\\" ++ tail)) _
    (skipBlank_nonempty (gramsLine_ne 1) _) (fun x hx => h.lines x (by simp at hx ⊢; tauto)) hfuel
  rw [e1, Res.bind_ok]
  have hl := hb _ (List.getLast_mem (l := s :: ss) (by simp))
  obtain ⟨b, hb'⟩ := Nat.exists_eq_add_of_le hl
  rw [hb']
  have e2 : Spec.blank (1 + b) ++ (Spec.sectionsText (2 + ss.length) (t :: ts) ++ (str "\\end\\" ++ tail)) =
      [] ++ nl :: (Spec.blank b ++ (heading (2 + ss.length) ++ nl :: (Spec.sectionLines t.1 ++ (Spec.blank t.2 ++
        (Spec.sectionsText (2 + ss.length + 1) ts ++ (str "\\end\\" ++ tail)))))) := by
    simp [Spec.blank, Spec.sectionsText, heading, Nat.add_comm 1 b, List.replicate_succ]
  rw [e2, readLine_line (by simp)]
  have : parseEof ⟨⟨Spec.blank b ++ (heading (2 + ss.length) ++ nl :: (Spec.sectionLines t.1 ++ (Spec.blank t.2 ++
        (Spec.sectionsText (2 + ss.length + 1) ts ++ (str "\\end\\" ++ tail))))), false⟩, []⟩ = .error () := by
    unfold parseEof
    cases b with
    | zero =>
      rw [show Spec.blank 0 = [] from rfl, List.nil_append, readLine_line (l := heading _) (gramsLine_clean _), expect, if_pos]
      intro e
      have := congrArg (fun l => l.getD 1 0) e
      obtain ⟨d, ds, e3, e4⟩ := decimal_cons (2 + ss.length)
      simp only [heading, e3, str] at this
      have e5 : d = 101#8 := by simpa using this
      subst e5
      exact absurd e4 (by decide)
    | succ b =>
      have : ∀ r, Spec.blank (b + 1) ++ r = [] ++ nl :: (Spec.blank b ++ r) := by simp [Spec.blank, List.replicate_succ]
      rw [this, readLine_line (by simp), expect, if_pos (show ([] : List Byte) ≠ str "\\end\\" by decide)]
  simp only
  rw [this]
  rfl

theorem skipBlank_never (fuel : Nat) : ArpaParser.skipBlank fuel ⟨⟨[], true⟩, []⟩ = none := by
  induction fuel with
  | zero => rfl
  | succ n ih => rw [ArpaParser.skipBlank, if_pos rfl]; exact ih

/-- C43, defect.  On an empty file, or one with only blank lines, `read_header` never ends: no number of steps is enough. -/
theorem C43_blank_file_never_ends_defect (blanks fuel : Nat) : ArpaParser.readHeader fuel (ArpaParser.new (Spec.blank blanks)) = none := by
  have : ∀ (b fuel : Nat), ArpaParser.skipBlank fuel ⟨⟨Spec.blank b, false⟩, []⟩ = none := by
    intro b
    induction b with
    | zero =>
      intro fuel
      cases fuel with
      | zero => rfl
      | succ n => rw [ArpaParser.skipBlank, if_pos rfl]; exact skipBlank_never n
    | succ b ih =>
      intro fuel
      cases fuel with
      | zero => rfl
      | succ n =>
        rw [ArpaParser.skipBlank, if_pos rfl, show Spec.blank (b + 1) = [] ++ nl :: Spec.blank b by simp [Spec.blank, List.replicate_succ],
          ArpaParser.readLine_line (by simp)]
        exact ih n
  unfold ArpaParser.readHeader ArpaParser.new
  rw [this]
  rfl

end

/-! ## A concrete file -/

namespace ArpaExample

/-- A `strtod` for numbers "-d" (a digit): enough for the example. -/
def strtod (s : List Byte) : Int × Nat :=
  match s with
  | 9#8 :: 45#8 :: d :: _ => (-(d.toNat - 48 : Int), 3)
  | 45#8 :: d :: _ => (-(d.toNat - 48 : Int), 2)
  | _ => (0, 0)

/-- The lines. -/
def line (p : Nat) (g : String) (b : Option Nat) : Spec.ArpaLine Int :=
  ⟨str "-" ++ [BitVec.ofNat 8 (48 + p)], str g, b.map fun b => str "-" ++ [BitVec.ofNat 8 (48 + b)], -p, -(b.getD 0)⟩

/-- A bigram model. -/
def sections : List (List (Spec.ArpaLine Int) × Nat) :=
  [([line 1 "a" (some 2), line 3 "b" (some 4)], 2), ([line 5 "a b" none], 1)]

theorem good : Spec.GoodArpa strtod sections [] where
  nonempty := by simp [sections]
  counts := by intro s hs; simp [sections] at hs; rcases hs with rfl | rfl <;> simp
  lines := by
    intro s hs l hl
    have : l ∈ [line 1 "a" (some 2), line 3 "b" (some 4), line 5 "a b" none] := by
      simp [sections] at hs
      rcases hs with rfl | rfl <;> simp at hl ⊢ <;> tauto
    simp only [List.mem_cons, List.not_mem_nil, or_false] at this
    rcases this with rfl | rfl | rfl
    · exact ⟨by decide, by decide, fun rest => rfl, by intro t ht; cases ht; decide⟩
    · exact ⟨by decide, by decide, fun rest => rfl, by intro t ht; cases ht; decide⟩
    · exact ⟨by decide, by decide, fun rest => rfl, by intro t ht; cases ht⟩
  last := by intro s hs; simp [sections] at hs; subst hs; rfl
  tail := .inl rfl

/-- The hypotheses of C43 are met; the section of the bigrams read. -/
example : ∃ vs, arpaFirstPass strtod (Spec.arpaText 1 0 sections []) 2 = some (.ok vs) ∧
    vs.map (·.1) = [[(-1, -2), (-3, -4)], [(-5, 0)]] := by
  obtain ⟨vs, h1, h2, -⟩ := C43_arpa_file_is_read 1 0 good
  refine ⟨vs, h1, h2.trans (by decide)⟩

/-- The file. -/
example : Spec.arpaText 0 0 sections [] =
    str "\\data\\\nngram 1=2\nngram 2=1\n\n\\1-grams:\n-1\ta\t-2\n-3\tb\t-4\n\n\n\\2-grams:\n-5\ta b\n\n\\end\\" := by
  decide +kernel

end ArpaExample

end Tongrams
