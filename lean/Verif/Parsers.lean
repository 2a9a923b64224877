import Verif.PropsBytes
import Verif.Trie
import Mathlib.Data.Nat.Digits.Lemmas

/-!
# Parsing lines and count files

`parse_count_line`, `count_line_handler`, `count_records_iterator` and `grams_gzparser` (include/utils/parsers.hpp), over the bytes that the gzip filter
of boost delivers (decompression itself is not modelled).  `std::getline`, `std::strtoull`, `std::stoull` and `std::to_string` are modelled below from the
C and C++ standards.
-/
namespace Tongrams

/-- A decimal digit. -/
def isDigit (b : Byte) : Bool := decide (48 ≤ b.toNat) && decide (b.toNat ≤ 57)

/-- `isspace` in the C locale. -/
def isSpace (b : Byte) : Bool := b == 32#8 || (decide (9 ≤ b.toNat) && decide (b.toNat ≤ 13))

/-- The value of the digits at the front (C11 7.22.1.4). -/
def digitsValue : Nat → List Byte → Nat
  | acc, [] => acc
  | acc, b :: bs => if isDigit b then digitsValue (acc * 10 + (b.toNat - 48)) bs else acc

/-- Are there digits at the front? -/
def startsWithDigit : List Byte → Bool
  | [] => false
  | b :: _ => isDigit b

/-- `std::strtoull(s, nullptr, 10)` (called at include/utils/util.hpp:341-347): white space, a sign, digits; a value too large gives `ULLONG_MAX`,
a minus sign negates in 64 bits (C11 7.22.1.4). -/
def strtoull (s : List Byte) : W :=
  let s := s.dropWhile isSpace
  match s with
  | [] => 0#64
  | c :: rest =>
    if c = 45#8 then if digitsValue 0 rest < 2 ^ 64 then - BitVec.ofNat 64 (digitsValue 0 rest) else BitVec.allOnes 64
    else
      let v := if c = 43#8 then digitsValue 0 rest else digitsValue 0 (c :: rest)
      if v < 2 ^ 64 then BitVec.ofNat 64 v else BitVec.allOnes 64

/-- `std::stoull(s)` (called at parsers.hpp:280): as `strtoull`, but an exception when there are no digits or the value is too large. -/
def stoull (s : List Byte) : Except Unit W :=
  match s.dropWhile isSpace with
  | [] => .error ()
  | c :: rest =>
    let ds := if c = 45#8 ∨ c = 43#8 then rest else c :: rest
    if startsWithDigit ds = false then .error ()
    else if digitsValue 0 ds < 2 ^ 64 then .ok (if c = 45#8 then - BitVec.ofNat 64 (digitsValue 0 ds) else BitVec.ofNat 64 (digitsValue 0 ds))
    else .error ()

/-- `std::to_string(n)` for an unsigned integer: its decimal digits. -/
def decimal (n : Nat) : List Byte :=
  if n = 0 then [48#8] else ((Nat.digits 10 n).map fun d => BitVec.ofNat 8 (48 + d)).reverse

/-- `parse_count_line` (include/utils/parsers.hpp:13-29). -/
def parseCountLine (line : Mem) : Option (List Byte × W) :=
  (Bytes.splitUponCheckEnd line line.length tab).bind fun br =>
    let gram := slice line br
    if br.2 = line.length then some (gram, 0#64) else some (gram, strtoull (line.drop (br.2 + 1)))

/-- `count_line_handler::format_line` (parsers.hpp:86-91). -/
def formatCountLine (gram : List Byte) (count : W) : List Byte := gram ++ tab :: decimal count.toNat

/-! ## Streams -/

/-- An input stream: the bytes not read yet, and whether the end was hit (`eofbit`). -/
structure IStream where
  rest : List Byte
  eof : Bool
  deriving DecidableEq, Repr

/-- `std::getline(is, line)`: nothing happens, not even to the string, once the end was hit (C++17 24.3.3.4, [istream::sentry]). -/
def getline (is : IStream) (line : List Byte) : IStream × List Byte :=
  if is.eof then (is, line) else
  let l := is.rest.takeWhile (· != nl)
  if l.length < is.rest.length then (⟨is.rest.drop (l.length + 1), false⟩, l) else (⟨[], true⟩, l)

/-- The constructor of `grams_gzparser` (parsers.hpp:260-290): the stream after the first line and the number of lines.  Exceptions and `exit(1)` are errors. -/
def gramsOpen (file : List Byte) : Except Unit (IStream × Nat) :=
  let (is, line) := getline ⟨file, false⟩ []
  if line = [] then .error () else do
    let n ← stoull line
    if n = 0#64 then .error () else return (is, n.toNat)

/-- The loop `for (auto const& l : gp)` (mph_count_lm.hpp:30, trie_count_lm.hpp:36, pools.hpp:63): the constructor of the iterator reads a line, `*it` parses it,
`++it` reads the next (parsers.hpp:218-253), until the line number is the announced one. -/
def gramsLoop : Nat → IStream × List Byte → Option (List (List Byte × W))
  | 0, _ => some []
  | n + 1, (is, line) => (parseCountLine line).bind fun r => (gramsLoop n (getline is line)).map (r :: ·)

/-- All the records of a count file (parsers.hpp:255-304). -/
def readGrams (file : List Byte) : Res (List (List Byte × W)) :=
  match gramsOpen file with
  | .error () => some (.error ())
  | .ok (is, n) => (gramsLoop n (getline is [])).map .ok

/-! ## Specification -/

/-- The text of a count file: the number of lines, then a line per n-gram. -/
def Spec.countFile (records : List (List Byte × W)) : List Byte :=
  decimal records.length ++ nl :: records.flatMap fun r => r.1 ++ tab :: (decimal r.2.toNat ++ [nl])

/-- N-grams that a count file can hold: no tab, no newline. -/
def Spec.CleanGram (g : List Byte) : Prop := tab ∉ g ∧ nl ∉ g

/-! ## Proofs -/

theorem isDigit_iff {b : Byte} : isDigit b = true ↔ 48 ≤ b.toNat ∧ b.toNat ≤ 57 := by simp [isDigit]

theorem digitsValue_append (ds rest : List Byte) (h : ∀ d ∈ ds, isDigit d = true) (acc : Nat) :
    digitsValue acc (ds ++ rest) = digitsValue (digitsValue acc ds) rest := by
  induction ds generalizing acc with
  | nil => rfl
  | cons d ds ih =>
    simp only [List.cons_append, digitsValue, h d (by simp), if_true]
    exact ih (fun x hx => h x (by simp [hx])) _

/-- The byte of a digit. -/
def digitByte (d : Nat) : Byte := BitVec.ofNat 8 (48 + d)

theorem digitByte_toNat {d : Nat} (h : d < 10) : (digitByte d).toNat = 48 + d := by
  simp only [digitByte, BitVec.toNat_ofNat]; omega

theorem digitByte_digit {d : Nat} (h : d < 10) : isDigit (digitByte d) = true := by rw [isDigit_iff, digitByte_toNat h]; omega

theorem digitsValue_digits : ∀ (ds : List Nat), (∀ d ∈ ds, d < 10) → digitsValue 0 (ds.map digitByte).reverse = Nat.ofDigits 10 ds := by
  intro ds h
  induction ds with
  | nil => rfl
  | cons d ds ih =>
    rw [List.map_cons, List.reverse_cons, digitsValue_append _ _ (by
      intro x hx
      simp only [List.mem_reverse, List.mem_map] at hx
      obtain ⟨y, hy, rfl⟩ := hx
      exact digitByte_digit (h y (by simp [hy]))), ih (fun x hx => h x (by simp [hx]))]
    simp only [digitsValue, digitByte_digit (h d (by simp)), if_true, digitByte_toNat (h d (by simp)), Nat.ofDigits_cons]
    omega

theorem decimal_digits (n : Nat) : ∀ b ∈ decimal n, isDigit b = true := by
  unfold decimal
  split
  · intro b hb; simp at hb; subst hb; decide
  · intro b hb
    simp only [List.mem_reverse, List.mem_map] at hb
    obtain ⟨d, hd, rfl⟩ := hb
    exact digitByte_digit (Nat.digits_lt_base (by omega) hd)

theorem decimal_ne_nil (n : Nat) : decimal n ≠ [] := by
  unfold decimal
  split
  · simp
  · next h => simpa using Nat.digits_ne_nil_iff_ne_zero.2 h

theorem decimal_value (n : Nat) : digitsValue 0 (decimal n) = n := by
  unfold decimal
  split
  · next h => subst h; decide
  · exact (digitsValue_digits _ fun d hd => Nat.digits_lt_base (by omega) hd).trans (Nat.ofDigits_digits 10 n)

theorem decimal_no {n : Nat} {b : Byte} (h : isDigit b = false) : b ∉ decimal n := by
  intro hb
  rw [decimal_digits n b hb] at h
  cases h

/-- Digits followed by something else. -/
theorem decimal_value_append (n : Nat) {rest : List Byte} (h : startsWithDigit rest = false) : digitsValue 0 (decimal n ++ rest) = n := by
  rw [digitsValue_append _ _ (decimal_digits n), decimal_value]
  cases rest with
  | nil => rfl
  | cons b bs => simp only [startsWithDigit] at h; simp [digitsValue, h]

theorem decimal_cons (n : Nat) : ∃ d ds, decimal n = d :: ds ∧ isDigit d = true := by
  cases h : decimal n with
  | nil => exact absurd h (decimal_ne_nil n)
  | cons d ds => exact ⟨d, ds, rfl, decimal_digits n d (by rw [h]; simp)⟩

theorem digit_not_space {d : Byte} (h : isDigit d = true) : isSpace d = false ∧ d ≠ 45#8 ∧ d ≠ 43#8 := by
  rw [isDigit_iff] at h
  refine ⟨?_, ?_, ?_⟩
  · simp only [isSpace, Bool.or_eq_false_iff, Bool.and_eq_false_iff, decide_eq_false_iff_not, beq_eq_false_iff_ne, ne_eq]
    refine ⟨?_, by omega⟩
    intro e; subst e; simp at h
  · intro e; subst e; simp at h
  · intro e; subst e; simp at h

theorem strtoull_decimal (n : Nat) {rest : List Byte} (h : startsWithDigit rest = false) (hn : n < 2 ^ 64) :
    strtoull (decimal n ++ rest) = BitVec.ofNat 64 n := by
  obtain ⟨d, ds, e, hd⟩ := decimal_cons n
  obtain ⟨h1, h2, h3⟩ := digit_not_space hd
  have hv := decimal_value_append n h
  rw [e, List.cons_append] at hv ⊢
  unfold strtoull
  rw [List.dropWhile_cons_of_neg (by simp [h1])]
  simp only [h2, h3, if_false]
  rw [hv, if_pos hn]

theorem stoull_decimal (n : Nat) (hn : n < 2 ^ 64) : stoull (decimal n) = .ok (BitVec.ofNat 64 n) := by
  obtain ⟨d, ds, e, hd⟩ := decimal_cons n
  obtain ⟨h1, h2, h3⟩ := digit_not_space hd
  have hv := decimal_value n
  rw [e] at hv ⊢
  unfold stoull
  rw [List.dropWhile_cons_of_neg (by simp [h1])]
  simp only [h2, h3, or_self, if_false, startsWithDigit, hd]
  rw [hv]
  simpa using hn

/-- **C41**.  A line "gram TAB rest" whose gram has no tab is parsed to the gram and to the number that `strtoull` reads in the rest. -/
theorem C41_line_with_count (gram rest : List Byte) (h : tab ∉ gram) : parseCountLine (gram ++ tab :: rest) = some (gram, strtoull rest) := by
  unfold parseCountLine Bytes.splitUponCheckEnd
  rw [Bytes.findFwd_spec (q := gram.length) (Nat.zero_le _) (by simp)
    (fun i _ hi => ⟨gram[i], by rw [List.getElem?_append_left hi, List.getElem?_eq_getElem hi], by
      simp only [beq_eq_false_iff_ne]; intro e; exact h (e ▸ List.getElem_mem hi)⟩)
    (.inr ⟨tab, by simp, by simp⟩)]
  simp only [Option.map_some, Option.bind_some]
  rw [if_neg (by simp)]
  simp [slice]

/-- **C41**.  A line "gram TAB count", where the count is printed in decimal and may be followed by anything but a digit, gives this gram and this count. -/
theorem C41_gram_and_count (gram trail : List Byte) (count : Nat) (h : tab ∉ gram) (hc : count < 2 ^ 64) (ht : startsWithDigit trail = false) :
    parseCountLine (gram ++ tab :: (decimal count ++ trail)) = some (gram, BitVec.ofNat 64 count) := by
  rw [C41_line_with_count _ _ h, strtoull_decimal count ht hc]

/-- **C41**.  White space (space, tab, line feed, vertical tab, form feed, carriage return) and a plus sign before the count are skipped. -/
theorem C41_padded_count (gram pad sign trail : List Byte) (count : Nat) (h : tab ∉ gram) (hp : ∀ b ∈ pad, b ∈ ([32, 9, 10, 11, 12, 13] : List Byte))
    (hs : sign = [] ∨ sign = [43#8]) (hc : count < 2 ^ 64) (ht : startsWithDigit trail = false) :
    parseCountLine (gram ++ tab :: (pad ++ (sign ++ (decimal count ++ trail)))) = some (gram, BitVec.ofNat 64 count) := by
  rw [C41_line_with_count gram _ h]
  have hsp : ∀ b ∈ pad, isSpace b = true := by
    intro b hb
    have := hp b hb
    simp only [List.mem_cons, List.not_mem_nil, or_false] at this
    rcases this with rfl | rfl | rfl | rfl | rfl | rfl <;> decide
  have hdrop : ∀ rest : List Byte, (pad ++ rest).dropWhile isSpace = rest.dropWhile isSpace := by
    intro rest
    clear hp
    induction pad with
    | nil => rfl
    | cons a pad ih =>
      rw [List.cons_append, List.dropWhile_cons_of_pos (hsp a List.mem_cons_self)]
      exact ih fun b hb => hsp b (List.mem_cons_of_mem _ hb)
  have hst : ∀ rest : List Byte, strtoull (pad ++ rest) = strtoull rest := by
    intro rest
    unfold strtoull
    rw [hdrop rest]
  rw [hst]
  rcases hs with rfl | rfl
  · rw [List.nil_append, strtoull_decimal count ht hc]
  · have hv := decimal_value_append count ht
    unfold strtoull
    rw [List.singleton_append, List.dropWhile_cons_of_neg (by decide)]
    simp only [show (43#8 : Byte) ≠ 45#8 by decide, if_false, if_true, hv, if_pos hc]

/-- A padded count. -/
example : parseCountLine [97, 9, 32, 13, 43, 52, 50, 13] = some ([97], 42#64) := by decide +kernel

/-- **C41**.  A line without a tab is a gram whose count is 0. -/
theorem C41_line_without_tab (line : List Byte) (h : tab ∉ line) : parseCountLine line = some (line, 0#64) := by
  unfold parseCountLine Bytes.splitUponCheckEnd
  rw [Bytes.findFwd_spec (q := line.length) (Nat.zero_le _) (by simp)
    (fun i _ hi => ⟨line[i], List.getElem?_eq_getElem hi, by
      simp only [beq_eq_false_iff_ne]; intro e; exact h (e ▸ List.getElem_mem hi)⟩)
    (.inl (by simp))]
  simp [slice]

/-- **C41**.  Formatting a record and parsing the line gives the record back. -/
theorem C41_format_then_parse (gram : List Byte) (count : W) (h : tab ∉ gram) : parseCountLine (formatCountLine gram count) = some (gram, count) := by
  have := C41_gram_and_count gram [] count.toNat h count.isLt rfl
  simpa [formatCountLine] using this

/-- **C41**, defect: a count that does not fit in 64 bits is not an error: the largest count is stored. -/
theorem C41_count_overflow_defect (gram : List Byte) (count : Nat) (h : tab ∉ gram) (hc : 2 ^ 64 ≤ count) :
    parseCountLine (gram ++ tab :: decimal count) = some (gram, BitVec.allOnes 64) := by
  rw [C41_line_with_count _ _ h]
  obtain ⟨d, ds, e, hd⟩ := decimal_cons count
  obtain ⟨h1, h2, h3⟩ := digit_not_space hd
  have hv := decimal_value count
  rw [e] at hv ⊢
  unfold strtoull
  rw [List.dropWhile_cons_of_neg (by simp [h1])]
  simp only [h2, h3, if_false]
  rw [hv, if_neg (by omega)]

theorem takeWhile_line {l rest : List Byte} (h : nl ∉ l) : (l ++ nl :: rest).takeWhile (· != nl) = l := by
  rw [List.takeWhile_append_of_pos (fun x hx => by simp; intro e; exact h (e ▸ hx))]
  simp

theorem getline_line {l rest line : List Byte} (h : nl ∉ l) : getline ⟨l ++ nl :: rest, false⟩ line = (⟨rest, false⟩, l) := by
  unfold getline
  simp only [takeWhile_line h]
  rw [if_neg (by simp), if_pos (by simp)]
  have : (l ++ nl :: rest).drop (l.length + 1) = rest := by
    rw [List.drop_append, List.drop_of_length_le (by omega)]; simp
  rw [this]

/-- The lines of records. -/
def recordLines (records : List (List Byte × W)) : List Byte := records.flatMap fun r => r.1 ++ tab :: (decimal r.2.toNat ++ [nl])

theorem recordLines_cons (r : List Byte × W) (rs : List (List Byte × W)) :
    recordLines (r :: rs) = formatCountLine r.1 r.2 ++ nl :: recordLines rs := by
  simp [recordLines, formatCountLine]

theorem nl_not_mem_format {r : List Byte × W} (h : Spec.CleanGram r.1) : nl ∉ formatCountLine r.1 r.2 := by
  simp only [formatCountLine, List.mem_append, List.mem_cons, not_or]
  exact ⟨h.2, by decide, decimal_no (by decide)⟩

theorem gramsLoop_ok : ∀ (records : List (List Byte × W)) (line : List Byte), (∀ r ∈ records, Spec.CleanGram r.1) →
    gramsLoop records.length (getline ⟨recordLines records, false⟩ line) = some records := by
  intro records
  induction records with
  | nil => intro line _; simp [gramsLoop]
  | cons r rs ih =>
    intro line h
    have hr := h r (by simp)
    rw [recordLines_cons, getline_line (nl_not_mem_format hr), List.length_cons, gramsLoop, C41_format_then_parse _ _ hr.1, Option.bind_some,
      ih _ fun x hx => h x (by simp [hx])]
    rfl

/-- **C41** (whole files).  Reading a count file that lists any records (at least one; n-grams without tabs and newlines) gives exactly these records in order:
no record is lost, changed or repeated. -/
theorem C41_count_file (records : List (List Byte × W)) (hne : records ≠ []) (hlen : records.length < 2 ^ 64)
    (h : ∀ r ∈ records, Spec.CleanGram r.1) : readGrams (Spec.countFile records) = some (.ok records) := by
  have hpos : 0 < records.length := List.length_pos_iff.2 hne
  have e : Spec.countFile records = decimal records.length ++ nl :: recordLines records := rfl
  unfold readGrams gramsOpen
  rw [e, getline_line (decimal_no (by decide))]
  have hn : BitVec.ofNat 64 records.length ≠ 0#64 := by
    intro e
    have := congrArg BitVec.toNat e
    rw [BitVec.toNat_ofNat, Nat.mod_eq_of_lt hlen] at this
    simp at this
    exact hne this
  simp only [decimal_ne_nil, if_false, stoull_decimal _ hlen, bind, Except.bind, hn, pure, Except.pure]
  rw [BitVec.toNat_ofNat, Nat.mod_eq_of_lt hlen, gramsLoop_ok records _ h]
  rfl

/-- The hypotheses of C41 are met: "2\nthe end\t12\na\t7\n" is the file of two records. -/
example : readGrams (Spec.countFile [([116, 104, 101, 32, 101, 110, 100], 12#64), ([97], 7#64)]) = some (.ok [([116, 104, 101, 32, 101, 110, 100], 12#64), ([97], 7#64)]) ∧
    Spec.countFile [([116, 104, 101, 32, 101, 110, 100], 12#64), ([97], 7#64)] =
      [50, 10, 116, 104, 101, 32, 101, 110, 100, 9, 49, 50, 10, 97, 9, 55, 10] := by
  refine ⟨C41_count_file _ (by simp) (by simp) ?_, by simp [Spec.countFile, decimal, nl, tab]⟩
  intro r hr
  simp at hr
  rcases hr with rfl | rfl <;> exact ⟨by decide, by decide⟩

/-- **C41**.  Files without a number in the first line, or with 0, are refused. -/
theorem C41_bad_first_line (file : List Byte) (line rest : List Byte) (e : file = line ++ nl :: rest) (hl : nl ∉ line)
    (h : line = [] ∨ startsWithDigit line = false ∧ (∀ b ∈ line, isSpace b = false ∧ b ≠ 45#8 ∧ b ≠ 43#8) ∨ line = decimal 0) :
    readGrams file = some (.error ()) := by
  subst e
  unfold readGrams gramsOpen
  rw [getline_line hl]
  rcases h with rfl | ⟨h1, h2⟩ | rfl
  · simp
  · cases line with
    | nil => simp
    | cons b bs =>
      obtain ⟨b1, b2, b3⟩ := h2 b (by simp)
      have : stoull (b :: bs) = .error () := by
        unfold stoull
        rw [List.dropWhile_cons_of_neg (by simp [b1])]
        simp only [b2, b3, or_self, if_false, h1, if_true]
      simp only [this]
      simp [bind, Except.bind]
  · simp only [stoull_decimal 0 (by decide), decimal_ne_nil, if_false]
    simp [bind, Except.bind]

/-- C41, defect: when the first line announces more lines than there are and the last line does not end with a newline, the last record is read again. -/
theorem C41_missing_lines_defect :
    readGrams ([51, 10] ++ [97, 9, 49, 10] ++ [98, 9, 50]) = some (.ok [([97], 1#64), ([98], 2#64), ([98], 2#64)]) := by
  decide +kernel

end Tongrams
