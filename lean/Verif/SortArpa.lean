import Verif.SortTools

/-!
# C52: sort_arpa from text files to a text file (src/sort_arpa.cpp)
-/

set_option linter.unusedSectionVars false

namespace Tongrams

namespace SortArpa
variable {F : Type} [Zero F] [LT F] [DecidableLT F] [DecidableEq F]

/-- `while (ap.read_line());` (sort_arpa.cpp:62-63): up to an empty line. -/
def skipLines : Nat → ArpaParser → Option ArpaParser
  | 0, _ => none
  | n + 1, p => if p.readLine.line = [] then some p.readLine else skipLines n p.readLine

/-- The loop that skips to the section asked for (sort_arpa.cpp:61-66). -/
def skipTo (fuel : Nat) : Nat → ArpaParser → Option ArpaParser
  | 0, p => some p
  | k + 1, p => (skipLines fuel p).bind fun p => skipTo fuel k p.readLine.readLine

/-- The inner loop (sort_arpa.cpp:87-99), `last` is `n - 1`: the number of lines counted, the parser and the pool. -/
def fillPool (strtod : List Byte → F × Nat) (last : Nat) : Nat → Nat → ArpaParser → Pool (F × F) → Option (Nat × ArpaParser × Pool (F × F))
  | 0, _, _, _ => none
  | fuel + 1, i, p, pool =>
    if i = last then some (i, p, pool) else
    let p := p.readLine
    if p.line = [] then fillPool strtod last fuel i p pool else
    (parseProbLine strtod p.line).bind fun r => (pool.append r.1 r.2).bind fun x =>
    if x.1 then fillPool strtod last fuel (i + 1) p x.2 else some (i, p, x.2)

/-- The loop over the section (sort_arpa.cpp:85-105): the batches given to the sorter. -/
def driver (strtod : List Byte → F × Nat) (last fuel : Nat) : Nat → Nat → ArpaParser → Pool (F × F) → Option (List (List (List Byte × F × F)))
  | 0, _, _, _ => none
  | n + 1, i, p, pool =>
    if i < last then
      (parseProbLine strtod p.line).bind fun r => (pool.append r.1 r.2).bind fun x => (fillPool strtod last fuel i p x.2).bind fun y =>
      (driver strtod last fuel n (y.1 + 1) y.2.1 y.2.2.clear).map (y.2.2.records :: ·)
    else some []

/-- `prob_backoff_line_handler::format_line` (parsers.hpp:67-74); `toStr` is `std::to_string`. -/
def formatLine (toStr : F → List Byte) (r : List Byte × F × F) : List Byte :=
  toStr r.2.1 ++ tab :: (r.1 ++ if r.2.2 ≠ 0 then tab :: toStr r.2.2 else [])

/-- `sort_arpa` (src/sort_arpa.cpp:12-117) for the section `order`: what the output file contains in the end (it is emptied on line 79). -/
def sortArpa (strtod : List Byte → F × Nat) (toStr : F → List Byte) (S : StdSortFn (List Byte × F × F)) (hv : Mphf (List Byte) 64) (vocMem mem extra order : Nat)
    (vocabFile arpaFile : List Byte) : Res (List Byte) :=
  let fuel := arpaFile.length + 2
  Res.bind ((ArpaParser.new arpaFile).readHeader fuel) fun r =>
  if order = 0 ∨ r.1.length < order then some (.error ()) else
  Res.bind (SortTools.buildVocabulary hv vocMem extra vocabFile) fun t =>
  Res.bind (Res.lift (skipTo fuel (order - 1) r.2.readLine)) fun p =>
  Res.bind (Res.lift (r.1[order - 1]?)) fun n =>
  Res.bind (Res.lift (driver strtod ((n + 2 ^ 64 - 1) % 2 ^ 64) (fuel + n) (n + 1) 0 p (Pool.new mem extra))) fun bs =>
  SortText.run S (SortTools.cmpOf suffixOrder t) (formatLine toStr) (parseProbLine strtod) false n
    (str "\\" ++ decimal order ++ str "-grams:" ++ [nl]) bs

end SortArpa

/-- Specification: the line of an ARPA file for an n-gram with its values, printed with `toStr`; a backoff of 0 is left out. -/
def Spec.printed {F : Type} [Zero F] [DecidableEq F] (toStr : F → List Byte) (r : List (List Byte) × F × F) : Spec.ArpaLine F :=
  ⟨toStr r.2.1, joinSp r.1, if r.2.2 ≠ 0 then some (toStr r.2.2) else none, r.2.1, r.2.2⟩

/-- Specification: the printed numbers have no newlines, and `strtod` reads all of a printed number before a tab. -/
def Spec.Prints {F : Type} (strtod : List Byte → F × Nat) (toStr : F → List Byte) (x : F) : Prop :=
  nl ∉ toStr x ∧ ∀ rest, (strtod (toStr x ++ tab :: rest)).2 = (toStr x).length

/-! ## Proofs -/

namespace SortArpa
variable {F : Type} [Zero F] [LT F] [DecidableLT F] [DecidableEq F] {strtod : List Byte → F × Nat}

theorem text_ne_nil (l : Spec.ArpaLine F) : l.text ≠ [] := by simp [Spec.ArpaLine.text]

theorem readLine_section {l : Spec.ArpaLine F} (h : l.Good strtod) (ls : List (Spec.ArpaLine F)) (rest line : List Byte) :
    ArpaParser.readLine ⟨⟨Spec.sectionLines (l :: ls) ++ rest, false⟩, line⟩ = ⟨⟨Spec.sectionLines ls ++ rest, false⟩, l.text⟩ := by
  rw [show Spec.sectionLines (l :: ls) ++ rest = l.text ++ nl :: (Spec.sectionLines ls ++ rest) by simp [Spec.sectionLines]]
  exact ArpaParser.readLine_line h.oneLine

theorem fillPool_spec {pool : Pool (F × F)} {held : List (List Byte × F × F)} (hp : pool.Holds held) (hne : held ≠ []) (tail : List Byte) :
    ∀ (rest : List (Spec.ArpaLine F)) (fuel i : Nat) (line : List Byte), (∀ l ∈ rest, l.Good strtod ∧ l.gram ≠ []) → rest.length < fuel →
      ∃ (as rest' : List (Spec.ArpaLine F)) (p' : ArpaParser) (pool' : Pool (F × F)) (held' : List (List Byte × F × F)), rest = as ++ rest' ∧
        fillPool strtod (i + rest.length) fuel i ⟨⟨Spec.sectionLines rest ++ tail, false⟩, line⟩ pool = some (i + as.length, p', pool') ∧ pool'.Holds held' ∧
        pool'.maxBytes = pool.maxBytes ∧ held'.length = held.length + as.length ∧
        Spec.greedy pool.maxBytes held (rest.map (·.record)) = held' :: Spec.greedy pool.maxBytes [] (rest'.map (·.record)) ∧
        ∀ l bs, rest' = l :: bs → p' = ⟨⟨Spec.sectionLines bs ++ tail, false⟩, l.text⟩ := by
  intro rest
  induction rest generalizing pool held with
  | nil =>
    intro fuel i line _ hf
    obtain ⟨fuel, rfl⟩ : ∃ k, fuel = k + 1 := ⟨fuel - 1, by simp at hf; omega⟩
    refine ⟨[], [], _, pool, held, rfl, by rw [fillPool, if_pos (by simp)]; rfl, hp, rfl, by simp, by simp [Spec.greedy, hne], by simp⟩
  | cons l rest ih =>
    intro fuel i line h hf
    obtain ⟨fuel, rfl⟩ : ∃ k, fuel = k + 1 := ⟨fuel - 1, by simp at hf; omega⟩
    obtain ⟨hl, hlg⟩ := h l (by simp)
    rw [fillPool, if_neg (by simp)]
    simp only
    rw [readLine_section hl]
    simp only
    rw [if_neg (text_ne_nil l), parseProbLine_ok hl, Option.bind_some]
    obtain ⟨-, a2, a3⟩ := Pool.append_ok hp l.record.1 l.record.2
    by_cases hle : pool.bytes.length + l.record.1.length ≤ pool.maxBytes
    · obtain ⟨q, b1, b2, b3⟩ := a2 hlg hle
      obtain ⟨as, rest', p', pool', held', c1, c2, c3, c4, c5, c6, c7⟩ := ih b3 (by simp) fuel (i + 1) l.text (fun x hx => h x (by simp [hx])) (by simp at hf; omega)
      refine ⟨l :: as, rest', p', pool', held', by rw [c1]; rfl, ?_, c3, by rw [c4, b2], by rw [c5]; simp; omega, ?_, c7⟩
      · rw [b1, Option.bind_some, if_pos rfl, show i + (l :: rest).length = i + 1 + rest.length by simp; omega, c2]
        simp; omega
      · rw [List.map_cons, Spec.greedy, if_pos (.inr (by rw [← hp.len]; exact hle))]
        rw [b2] at c6
        exact c6
    · refine ⟨[], l :: rest, _, pool, held, rfl, by rw [a3 hlg (by omega), Option.bind_some, if_neg (by simp)]; rfl, hp, rfl, by simp, ?_, ?_⟩
      · rw [List.map_cons, Spec.greedy, if_neg (by rw [← hp.len]; rintro (h' | h'); exact hne h'; exact hle h'), Spec.greedy, if_pos (.inl rfl)]
        rfl
      · intro l' bs e; cases e; rfl

theorem driver_spec (tail : List Byte) (n : Nat) : ∀ (rest : List (Spec.ArpaLine F)) (l : Spec.ArpaLine F) (i fuel : Nat) (pool : Pool (F × F)), rest.length < n →
    pool.Holds [] → (∀ x ∈ l :: rest, x.Good strtod ∧ x.gram ≠ [] ∧ x.gram.length ≤ pool.maxBytes) → rest.length < fuel →
    driver strtod (i + rest.length) fuel n i ⟨⟨Spec.sectionLines rest ++ tail, false⟩, l.text⟩ pool =
      some (SortGrams.given (Spec.greedy pool.maxBytes [] ((l :: rest).map (·.record)))) := by
  induction n with
  | zero => intro rest l i fuel pool h; omega
  | succ n ih =>
    intro rest l i fuel pool hn hp h hf
    rw [driver]
    cases rest with
    | nil => rw [if_neg (by simp)]; simp [Spec.greedy, SortGrams.given]
    | cons l2 rest =>
      rw [if_pos (by simp)]
      obtain ⟨hl, hlg, hlm⟩ := h l (by simp)
      rw [parseProbLine_ok hl, Option.bind_some]
      obtain ⟨-, a2, -⟩ := Pool.append_ok hp l.record.1 l.record.2
      have hb0 : pool.bytes = [] := hp.bytes
      obtain ⟨q, b1, b2, b3⟩ := a2 hlg (by rw [hb0, List.length_nil]; show 0 + l.gram.length ≤ _; omega)
      rw [b1, Option.bind_some]
      obtain ⟨as, rest', p', pool', held', c1, c2, c3, c4, c5, c6, c7⟩ := fillPool_spec (strtod := strtod) b3 (by simp) tail (l2 :: rest) fuel i l.text
        (fun x hx => ⟨(h x (by simp at hx ⊢; tauto)).1, (h x (by simp at hx ⊢; tauto)).2.1⟩) hf
      simp only [c2, Option.bind_some]
      have hg : Spec.greedy pool.maxBytes [] ((l :: l2 :: rest).map (·.record)) = held' :: Spec.greedy pool.maxBytes [] (rest'.map (·.record)) := by
        rw [b2] at c6
        rw [List.map_cons, Spec.greedy, if_pos (.inl rfl)]
        exact c6
      have hmax : pool'.clear.maxBytes = pool.maxBytes := by show pool'.maxBytes = _; rw [c4, b2]
      rw [hg, c3.records]
      cases rest' with
      | nil =>
        have hlen : (l2 :: rest).length = as.length := by rw [c1]; simp
        have hnn : ∃ m, n = m + 1 := ⟨n - 1, by simp at hn; omega⟩
        obtain ⟨m, rfl⟩ := hnn
        rw [driver, if_neg (by omega)]
        have : held'.length ≠ 1 := by simp at hlen c5; omega
        simp [Spec.greedy, SortGrams.given, this]
      | cons l' bs =>
        have hlen : (l2 :: rest).length = as.length + (bs.length + 1) := by rw [c1]; simp
        rw [c7 l' bs rfl, show i + (l2 :: rest).length = (i + as.length + 1) + bs.length by omega,
          ih bs l' (i + as.length + 1) fuel pool'.clear (by omega) (Pool.clear_holds c3) (fun x hx => by
            rw [hmax]; exact h x (by rw [c1]; simp at hx ⊢; tauto)) (by omega), hmax, Option.map_some,
          SortGrams.given_cons _ (SortGrams.greedy_ne_nil _ (by simp))]

/-- Skipping a section that has lines, and a single blank line. -/
theorem skipLines_ok (tail : List Byte) : ∀ (ls : List (Spec.ArpaLine F)) (fuel : Nat) (line : List Byte), (∀ l ∈ ls, l.Good strtod) → ls.length < fuel →
    skipLines fuel ⟨⟨Spec.sectionLines ls ++ nl :: tail, false⟩, line⟩ = some ⟨⟨tail, false⟩, []⟩ := by
  intro ls
  induction ls with
  | nil =>
    intro fuel line _ hf
    obtain ⟨fuel, rfl⟩ : ∃ k, fuel = k + 1 := ⟨fuel - 1, by simp at hf; omega⟩
    have : ArpaParser.readLine ⟨⟨Spec.sectionLines ([] : List (Spec.ArpaLine F)) ++ nl :: tail, false⟩, line⟩ = ⟨⟨tail, false⟩, []⟩ :=
      ArpaParser.readLine_line (l := []) (by simp)
    rw [skipLines, this, if_pos rfl]
  | cons l ls ih =>
    intro fuel line h hf
    obtain ⟨fuel, rfl⟩ : ∃ k, fuel = k + 1 := ⟨fuel - 1, by simp at hf; omega⟩
    rw [skipLines, readLine_section (h l (by simp)), if_neg (text_ne_nil l), ih fuel _ (fun x hx => h x (by simp [hx])) (by simp at hf; omega)]

theorem skipTo_ok (tail : List Byte) {fuel : Nat} : ∀ (before : List (List (Spec.ArpaLine F) × Nat)) (i : Nat) (s : List (Spec.ArpaLine F) × Nat) (after : List (List (Spec.ArpaLine F) × Nat)) (l0 l : Spec.ArpaLine F)
    (ls0 ls : List (Spec.ArpaLine F)),
    (∀ x ∈ before, x.1 ≠ [] ∧ x.2 = 1 ∧ x.1.length < fuel ∧ ∀ y ∈ x.1, y.Good strtod) → (∀ y ∈ s.1, y.Good strtod) → s.1 = l :: ls →
    (((before ++ [s]).head (by simp)).1 = l0 :: ls0) →
    skipTo fuel before.length ⟨⟨Spec.sectionLines ls0 ++ (Spec.blank ((before ++ [s]).head (by simp)).2 ++ (Spec.sectionsText (i + 1) ((before ++ s :: after).tail) ++ tail)), false⟩, l0.text⟩ =
      some ⟨⟨Spec.sectionLines ls ++ (Spec.blank s.2 ++ (Spec.sectionsText (i + 1 + before.length) after ++ tail)), false⟩, l.text⟩ := by
  intro before
  induction before with
  | nil =>
    intro i s after l0 l ls0 ls _ _ hs h0
    simp only [List.nil_append, List.head_cons] at h0 ⊢
    rw [hs] at h0; cases h0
    rfl
  | cons b before ih =>
    intro i s after l0 l ls0 ls hb hg hs h0
    simp only [List.cons_append, List.head_cons, List.tail_cons] at h0 ⊢
    obtain ⟨b1, b2, b3, b4⟩ := hb b (by simp)
    have hlen : ls0.length < fuel := by rw [h0] at b3; simp at b3; omega
    rw [List.length_cons, skipTo, b2, show Spec.blank 1 = [nl] from rfl, List.singleton_append,
      skipLines_ok _ ls0 fuel _ (fun y hy => b4 y (by rw [h0]; simp [hy])) hlen, Option.bind_some]
    -- the next section
    obtain ⟨c, cs, hc⟩ : ∃ c cs, before ++ s :: after = c :: cs := by
      cases before with
      | nil => exact ⟨s, after, rfl⟩
      | cons c cs => exact ⟨c, cs ++ s :: after, rfl⟩
    have hcg : c.1 ≠ [] ∧ (∀ y ∈ c.1, y.Good strtod) ∧ (before ++ [s]).head (by simp) = c := by
      cases before with
      | nil => simp at hc; rw [← hc.1]; exact ⟨by rw [hs]; simp, hg, rfl⟩
      | cons c' cs' =>
        simp at hc
        have := hb c' (by simp)
        rw [← hc.1]
        exact ⟨this.1, this.2.2.2, rfl⟩
    obtain ⟨l1, ls1, hl1⟩ : ∃ l1 ls1, c.1 = l1 :: ls1 := List.exists_cons_of_ne_nil hcg.1
    have ih' := ih (i + 1) s after l1 l ls1 ls (fun x hx => hb x (by simp [hx])) hg hs (by rw [hcg.2.2]; exact hl1)
    rw [hcg.2.2] at ih'
    rw [hc] at ih' ⊢
    rw [Spec.sectionsText, show str "\\" ++ decimal (i + 1) ++ str "-grams:" ++ nl :: (Spec.sectionLines c.1 ++ (Spec.blank c.2 ++ Spec.sectionsText (i + 1 + 1) cs)) ++ tail
      = (str "\\" ++ decimal (i + 1) ++ str "-grams:") ++ nl :: (Spec.sectionLines (l1 :: ls1) ++ (Spec.blank c.2 ++ (Spec.sectionsText (i + 1 + 1) cs ++ tail))) by
        rw [hl1]; simp, ArpaParser.readLine_line (ArpaParser.gramsLine_clean _), readLine_section (hcg.2.1 l1 (by rw [hl1]; simp))]
    rw [show i + 1 + (before.length + 1) = i + 1 + 1 + before.length by omega]
    exact ih'

end SortArpa


namespace SortArpa
variable {F : Type} [Zero F] [LT F] [DecidableLT F] [DecidableEq F] {strtod : List Byte → F × Nat}

/-- The order of the records by the identifiers of their words, last word first. -/
noncomputable def ltSuffix (U : List (List Byte)) (k : Nat) (a b : List Byte × F × F) : Bool :=
  decide (((SortTools.wordsOf U k a).map (Spec.idIn U)).reverse < ((SortTools.wordsOf U k b).map (Spec.idIn U)).reverse)

/-- The record on a line. -/
def recOf (strtod : List Byte → F × Nat) (l : List Byte) : List Byte × F × F := (parseProbLine strtod l).getD ([], 0, 0)

theorem cmp_suffix {U : List (List Byte)} (hU : Spec.Words U) {k : Nat} (hk : 1 ≤ k) {t : SVTable (List Byte) 64} (ht : Spec.Ids (SortTools.idOf t) U (Spec.idIn U))
    {a b : List Byte × F × F} (ha : SortTools.IsRec U k a) (hb : SortTools.IsRec U k b) : SortTools.cmpOf suffixOrder t a b = some (ltSuffix U k a b) := by
  obtain ⟨ws, e, h⟩ := ha
  obtain ⟨vs, e', h'⟩ := hb
  obtain ⟨a, v⟩ := a
  obtain ⟨b, w⟩ := b
  cases e; cases e'
  rw [SortTools.suffix_cmp hU hk ht h h']
  unfold ltSuffix
  rw [SortTools.wordsOf_eq hU hk h, SortTools.wordsOf_eq hU hk h']

/-- The records that can be written and read back. -/
structure Ready (strtod : List Byte → F × Nat) (toStr : F → List Byte) (U : List (List Byte)) (k : Nat) (x : List Byte × F × F) : Prop where
  rec_ : SortTools.IsRec U k x
  prob : Spec.Prints strtod toStr x.2.1
  backoff : x.2.2 ≠ 0 → nl ∉ toStr x.2.2

theorem format_parts {toStr : F → List Byte} {U : List (List Byte)} (hU : Spec.Words U) {k : Nat} {x : List Byte × F × F} (h : Ready strtod toStr U k x) :
    nl ∉ formatLine toStr x ∧ ∃ y, parseProbLine strtod (formatLine toStr x) = some y ∧ y.1 = x.1 := by
  obtain ⟨⟨ws, e, hg⟩, ⟨p1, p2⟩, hbk⟩ := h
  have hclean := SortTools.tab_not_mem hU hg
  rw [← e] at hclean
  let l : Spec.ArpaLine F := ⟨toStr x.2.1, x.1, if x.2.2 ≠ 0 then some (toStr x.2.2) else none, (strtod (toStr x.2.1 ++ tab :: (x.1 ++ Spec.backoffPart (if x.2.2 ≠ 0 then some (toStr x.2.2) else none)))).1, 0⟩
  have htext : formatLine toStr x = l.text := by
    show _ = toStr x.2.1 ++ tab :: (x.1 ++ Spec.backoffPart (if x.2.2 ≠ 0 then some (toStr x.2.2) else none))
    unfold formatLine
    split <;> rfl
  have hnl : nl ∉ formatLine toStr x := by
    unfold formatLine
    simp only [List.mem_append, List.mem_cons, not_or]
    refine ⟨p1, by decide, hclean.2, ?_⟩
    split
    · rename_i hz
      simp only [List.mem_cons, not_or]
      exact ⟨by decide, hbk hz⟩
    · simp
  refine ⟨hnl, ?_⟩
  -- the line read back
  unfold parseProbLine
  have e1 : (strtod (formatLine toStr x)).2 = (toStr x.2.1).length := p2 _
  simp only [e1]
  have hlen : ¬ (formatLine toStr x).length < (toStr x.2.1).length + 1 := by unfold formatLine; simp
  rw [if_neg hlen]
  generalize hrest : (if x.2.2 ≠ 0 then tab :: toStr x.2.2 else []) = rest
  have ht : formatLine toStr x = toStr x.2.1 ++ tab :: (x.1 ++ rest) := by unfold formatLine; rw [hrest]
  have hrt : rest = [] ∨ ∃ t, rest = tab :: t := by
    rw [← hrest]; split
    · exact .inr ⟨_, rfl⟩
    · exact .inl rfl
  rw [ht]
  have hget : ∀ i, (hi : i < x.1.length) → (toStr x.2.1 ++ tab :: (x.1 ++ rest))[(toStr x.2.1).length + 1 + i]? = some x.1[i] := by
    intro i hi
    rw [List.getElem?_append_right (by omega), show (toStr x.2.1).length + 1 + i - (toStr x.2.1).length = i + 1 by omega, List.getElem?_cons_succ,
      List.getElem?_append_left hi, List.getElem?_eq_getElem hi]
  rw [Bytes.findFwd_spec (q := (toStr x.2.1).length + 1 + x.1.length) (by omega) (by simp; omega) (by
    intro i hi hi'
    refine ⟨x.1[i - ((toStr x.2.1).length + 1)], ?_, ?_⟩
    · rw [← hget (i - ((toStr x.2.1).length + 1)) (by omega)]; congr 1; omega
    · simp only [beq_eq_false_iff_ne]; intro e; exact hclean.1 (e ▸ List.getElem_mem _)) (by
    rcases hrt with rfl | ⟨t, rfl⟩
    · left; simp; omega
    · right; refine ⟨tab, ?_, by simp⟩; rw [List.getElem?_append_right (by omega)]; simp [show (toStr x.2.1).length + 1 + x.1.length - (toStr x.2.1).length = x.1.length + 1 by omega])]
  refine ⟨_, rfl, ?_⟩
  simp only [slice]
  rw [List.drop_append, List.drop_of_length_le (by omega)]
  simp [show (toStr x.2.1).length + 1 - (toStr x.2.1).length = 1 by omega,
    show (toStr x.2.1).length + 1 + x.1.length - ((toStr x.2.1).length + 1) = x.1.length by omega]

theorem wordsOf_congr {V : Type} {U : List (List Byte)} (hU : Spec.Words U) {k : Nat} (hk : 1 ≤ k) {x y : List Byte × V} (h : SortTools.IsRec U k x)
    (e : y.1 = x.1) : SortTools.wordsOf U k y = SortTools.wordsOf U k x := by
  obtain ⟨ws, e', hg⟩ := h
  obtain ⟨x1, x2⟩ := x
  obtain ⟨y1, y2⟩ := y
  cases e'; cases e
  rw [SortTools.wordsOf_eq hU hk hg, SortTools.wordsOf_eq hU hk hg]

theorem lines_length : ∀ (ss : List (List (Spec.ArpaLine F) × Nat)) (i : Nat), ∀ s ∈ ss, s.1.length ≤ (Spec.sectionsText i ss).length := by
  intro ss
  induction ss with
  | nil => intro i s hs; simp at hs
  | cons a ss ih =>
    intro i s hs
    have : (Spec.sectionsText i (a :: ss)).length = (ArpaParser.heading i).length + 1 + (Spec.sectionLines a.1).length + a.2 + (Spec.sectionsText (i + 1) ss).length := by
      simp [Spec.sectionsText, ArpaParser.heading, ArpaParser.blank_length]; omega
    have hl : ∀ ls : List (Spec.ArpaLine F), ls.length ≤ (Spec.sectionLines ls).length := by
      intro ls
      induction ls with
      | nil => simp
      | cons l ls ih => simp only [Spec.sectionLines, List.flatMap_cons, List.length_append, List.length_cons] at ih ⊢; omega
    have := hl a.1
    simp only [List.mem_cons] at hs
    rcases hs with rfl | hs
    · omega
    · have := ih (i + 1) s hs; omega

end SortArpa

theorem SortArpa.formatLine_printed {F : Type} [Zero F] [DecidableEq F] (toStr : F → List Byte) (r : List (List Byte) × F × F) :
    SortArpa.formatLine toStr (joinSp r.1, r.2) = (Spec.printed toStr r).text := by
  obtain ⟨ws, p, b⟩ := r
  by_cases h : b = 0
  · simp [SortArpa.formatLine, Spec.printed, Spec.ArpaLine.text, Spec.backoffPart, h]
  · simp [SortArpa.formatLine, Spec.printed, Spec.ArpaLine.text, Spec.backoffPart, h]

open SortArpa in
/-- **C52** (sort_arpa, from text to text).  Given the text of a vocabulary and a well-formed ARPA file in which each section before the one asked for has
lines and is followed by exactly one blank line: `sort_arpa` leaves in the output file the heading of the section and exactly its n-grams with their
values, as `std::to_string` prints them, in suffix order: by the positions of the words in the vocabulary, last word first.  The pool may hold any part of
the section, as long as each n-gram fits and the last batch has more than one. -/
theorem C52_sort_arpa_text {F : Type} [Zero F] [LT F] [DecidableLT F] [DecidableEq F] {strtod : List Byte → F × Nat} {toStr : F → List Byte}
    {S : StdSortFn (List Byte × F × F)} (hS : Spec.StdSortLib S) {hv : Mphf (List Byte) 64} {U : List (List Byte)} (hU : Spec.Words U)
    (hb : hv.BuiltFrom U) {voc : List (List (List Byte) × Nat)} (hvoc : voc.map (·.1) = U.map fun w => [w]) {vocMem mem extra : Nat}
    (hmem : (U.map List.length).sum ≤ vocMem) (lead gap : Nat) {sections : List (List (Spec.ArpaLine F) × Nat)} {tail : List Byte}
    (hg : Spec.GoodArpa strtod sections tail) {k : Nat} {s : List (Spec.ArpaLine F) × Nat} (hk : sections[k]? = some s)
    (hbefore : ∀ (j : Nat) x, j < k → sections[j]? = some x → x.1 ≠ [] ∧ x.2 = 1)
    {f : List (List (List Byte) × F × F)} (hf : s.1.map (·.record) = f.map fun r => (joinSp r.1, r.2))
    (hgr : ∀ r ∈ f, Spec.GramOf U (k + 1) r.1 ∧ (joinSp r.1).length ≤ mem ∧ Spec.Prints strtod toStr r.2.1 ∧ (r.2.2 ≠ 0 → nl ∉ toStr r.2.2))
    (hlast : Spec.LastBatchLarge mem (f.map fun r => (joinSp r.1, r.2))) :
    ∃ o : List (List (List Byte) × F × F), o.Perm f ∧ (o.Pairwise fun p q => (p.1.map (Spec.idIn U)).reverse ≤ (q.1.map (Spec.idIn U)).reverse) ∧
      SortArpa.sortArpa strtod toStr S hv vocMem mem extra (k + 1) (Spec.gramsText voc) (Spec.arpaText lead gap sections tail) =
        some (.ok (str "\\" ++ decimal (k + 1) ++ str "-grams:" ++ nl :: Spec.sectionLines (o.map (Spec.printed toStr)))) := by
  obtain ⟨t, e1, ht⟩ := SortTools.buildVocabulary_ok hU hb hvoc (extra := extra) hmem
  have hk1 : 1 ≤ k + 1 := by omega
  have hklt : k < sections.length := (List.getElem?_eq_some_iff.1 hk).1
  have hsm := List.mem_of_getElem? hk
  obtain ⟨bl, hbl, hbl2⟩ := hlast
  have hfne : f ≠ [] := by rintro rfl; simp [Spec.greedy] at hbl
  have hfl : f.length = s.1.length := by simpa using (congrArg List.length hf).symm
  obtain ⟨l, ls, hls⟩ : ∃ l ls, s.1 = l :: ls := List.exists_cons_of_ne_nil (by
    intro e; rw [e] at hfl; exact hfne (List.length_eq_zero_iff.1 hfl))
  have hn64 := hg.counts s hsm
  -- the sections before
  obtain ⟨before, after, hsplit, hbk⟩ : ∃ before after, sections = before ++ s :: after ∧ before.length = k := by
    refine ⟨sections.take k, sections.drop (k + 1), ?_, by simp; omega⟩
    conv => lhs; rw [← List.take_append_drop k sections, List.drop_eq_getElem_cons hklt]
    rw [(List.getElem?_eq_some_iff.1 hk).2]
  have hbef : ∀ x ∈ before, x.1 ≠ [] ∧ x.2 = 1 := by
    intro x hx
    obtain ⟨j, hj⟩ := List.mem_iff_getElem?.1 hx
    have hjl := (List.getElem?_eq_some_iff.1 hj).1
    exact hbefore j x (by omega) (by rw [hsplit, List.getElem?_append_left hjl]; exact hj)
  obtain ⟨s0, ss, hs0⟩ := List.exists_cons_of_ne_nil hg.nonempty
  have hsz : ∀ x ∈ sections, x.1.length ≤ (Spec.arpaText lead gap sections tail).length := by
    intro x hx
    have h1 := lines_length sections 1 x hx
    have : (Spec.sectionsText 1 sections).length ≤ (Spec.arpaText lead gap sections tail).length := by simp [Spec.arpaText]; omega
    omega
  generalize hfile : Spec.arpaText lead gap sections tail = file at *
  have hh := ArpaParser.header_of_file lead gap s0 ss tail (fun x hx => hg.counts x (hs0 ▸ hx)) (fuel := file.length + 2) (by rw [← hs0, hfile]; omega)
  rw [← hs0, hfile] at hh
  -- the first line
  have hhead : ((before ++ [s]).head (by simp)) = s0 := by
    rw [hsplit] at hs0
    cases hbe : before with
    | nil => rw [hbe] at hs0; simp at hs0; simp [hs0.1]
    | cons b bs => rw [hbe] at hs0; simp at hs0; simp [hs0.1]
  obtain ⟨l0, ls0, hl0⟩ : ∃ l0 ls0, s0.1 = l0 :: ls0 := List.exists_cons_of_ne_nil (by
    cases hbe : before with
    | nil => rw [hbe] at hhead; simp at hhead; rw [← hhead, hls]; simp
    | cons b bs => rw [hbe] at hhead; simp at hhead; rw [← hhead]; exact (hbef b (by rw [hbe]; simp)).1)
  have hgood0 : ∀ y ∈ s0.1, y.Good strtod := hg.lines s0 (by rw [hs0]; simp)
  have hskip := skipTo_ok (strtod := strtod) (str "\\end\\" ++ tail) (fuel := file.length + 2) before 1 s after l0 l ls0 ls
    (fun x hx => ⟨(hbef x hx).1, (hbef x hx).2, by have := hsz x (by rw [hsplit]; simp [hx]); omega, hg.lines x (by rw [hsplit]; simp [hx])⟩)
    (hg.lines s hsm) hls (by rw [hhead]; exact hl0)
  rw [hhead, hbk, show (before ++ s :: after).tail = ss by rw [← hsplit, hs0]; rfl] at hskip
  -- the section
  have hrecs : ∀ x ∈ s.1, ∃ r ∈ f, x.record = (joinSp r.1, r.2) := by
    intro x hx
    have : x.record ∈ s.1.map (·.record) := List.mem_map_of_mem hx
    rw [hf] at this
    obtain ⟨r, hr, e⟩ := List.mem_map.1 this
    exact ⟨r, hr, e.symm⟩
  have hdrv := driver_spec (strtod := strtod) (Spec.blank s.2 ++ (Spec.sectionsText (1 + 1 + k) after ++ (str "\\end\\" ++ tail))) (s.1.length + 1) ls l 0
    (file.length + 2 + s.1.length) (Pool.new mem extra) (by rw [hls]; simp) (Pool.new_holds _ _)
    (by
      intro x hx
      rw [← hls] at hx
      obtain ⟨r, hr, e⟩ := hrecs x hx
      have eg : x.gram = joinSp r.1 := congrArg Prod.fst e
      refine ⟨hg.lines s hsm x hx, ?_, ?_⟩
      · rw [eg]; exact SortTools.joinSp_ne_nil hU hk1 (hgr r hr).1
      · rw [eg]; exact (hgr r hr).2.1)
    (by rw [hls]; simp; omega)
  rw [← hls, hf] at hdrv
  have hlast1 : 0 + ls.length = (s.1.length + 2 ^ 64 - 1) % 2 ^ 64 := by
    rw [hls] at hn64 ⊢
    simp only [List.length_cons] at hn64 ⊢
    rw [show ls.length + 1 + 2 ^ 64 - 1 = ls.length + 2 ^ 64 by omega, Nat.add_mod_right, Nat.mod_eq_of_lt (by omega)]; omega
  rw [hlast1] at hdrv
  have hgiven : SortGrams.given (Spec.greedy mem [] (f.map fun r => (joinSp r.1, r.2))) = Spec.greedy mem [] (f.map fun r => (joinSp r.1, r.2)) := by
    unfold SortGrams.given; rw [hbl, Option.map_some, if_neg (by simp; omega)]
  rw [show (Pool.new mem extra : Pool (F × F)).maxBytes = mem from rfl, hgiven] at hdrv
  -- the sorter
  have hflat := SortGrams.greedy_flatten mem [] (f.map fun r => (joinSp r.1, r.2))
  rw [List.nil_append] at hflat
  have hready : ∀ x ∈ f.map (fun r => (joinSp r.1, r.2)), Ready strtod toStr U (k + 1) x := by
    intro x hx
    obtain ⟨r, hr, rfl⟩ := List.mem_map.1 hx
    exact ⟨⟨r.1, rfl, (hgr r hr).1⟩, (hgr r hr).2.2.1, (hgr r hr).2.2.2⟩
  have hbatch : ∀ b ∈ Spec.greedy mem [] (f.map fun r => (joinSp r.1, r.2)), ∀ x ∈ b, Ready strtod toStr U (k + 1) x := by
    intro b hb' x hx
    exact hready x (by rw [← hflat]; exact List.mem_flatten.2 ⟨b, hb', hx⟩)
  have hread : ∀ a, Ready strtod toStr U (k + 1) a → parseProbLine strtod (formatLine toStr a) = some (recOf strtod (formatLine toStr a)) ∧
      (recOf strtod (formatLine toStr a)).1 = a.1 := by
    intro a ha
    obtain ⟨-, y, p1, p2⟩ := format_parts hU ha
    unfold recOf; rw [p1]; exact ⟨rfl, p2⟩
  obtain ⟨sort, hsrt, hrun⟩ := SortText.run_sorted hS (cmp := SortTools.cmpOf suffixOrder t) (P := SortTools.IsRec U (k + 1)) (Q := Ready strtod toStr U (k + 1))
    (fun _ h => h.rec_) (ltSuffix U (k + 1)) (SortTools.strictWeak_key (fun x => ((SortTools.wordsOf U (k + 1) x).map (Spec.idIn U)).reverse) _) (fun a b ha hb => cmp_suffix hU hk1 ht ha hb)
    (fmt := formatLine toStr) (prs := parseProbLine strtod) (recOf strtod) (fun a ha => (format_parts hU ha).1)
    (fun a ha => ⟨(hread a ha).1, by
      obtain ⟨ws, e, h⟩ := ha.rec_
      exact ⟨ws, by rw [(hread a ha).2, e], h⟩⟩)
  obtain ⟨sf, f1, f2⟩ := C34_sorter (lt := ltSuffix U (k + 1)) (fmt := formatLine toStr) (prs := recOf strtod) (P := Ready strtod toStr U (k + 1)) (sort := sort)
    (SortTools.strictWeak_key (fun x => ((SortTools.wordsOf U (k + 1) x).map (Spec.idIn U)).reverse) _)
    (fun l hl => hsrt l fun a ha => (hl a ha).rec_)
    (fun a b ha hb => by
      unfold ltSuffix
      rw [wordsOf_congr hU hk1 ha.rec_ (hread a ha).2, wordsOf_congr hU hk1 hb.rec_ (hread b hb).2]) false
    (Spec.greedy mem [] (f.map fun r => (joinSp r.1, r.2))) (SortGrams.greedy_ne_nil _ (by simpa using hfne))
    (fun b hb' => ⟨SortGrams.greedy_nonempty _ _ _ b hb', hbatch b hb'⟩)
  rw [hflat] at f1 f2
  obtain ⟨g1, o, g2, g3, g4⟩ := f2
  let back : List Byte × F × F → List (List Byte) × F × F := fun x => (SortTools.wordsOf U (k + 1) x, x.2)
  have hback : ∀ r ∈ f, back (joinSp r.1, r.2) = r := by
    intro r hr
    show (SortTools.wordsOf U (k + 1) (joinSp r.1, _), r.2) = r
    rw [SortTools.wordsOf_eq hU hk1 (hgr r hr).1]
  refine ⟨o.map back, ?_, ?_, ?_⟩
  · have := g3.map back
    rw [List.map_map] at this
    have e : f.map (back ∘ fun r => (joinSp r.1, r.2)) = f := by
      conv => rhs; rw [← List.map_id f]
      exact List.map_congr_left hback
    rwa [e] at this
  · rw [List.pairwise_map]
    refine g4.imp ?_
    intro a b hab
    unfold ltSuffix at hab
    simpa using hab
  · unfold SortArpa.sortArpa
    simp only
    rw [hh, Res.bind_ok]
    simp only
    rw [if_neg (by simp; omega), e1, Res.bind_ok, hl0, readLine_section (hgood0 l0 (by rw [hl0]; simp)), Nat.add_sub_cancel, hskip, Res.lift_some, Res.bind_ok]
    have hn : (sections.map (·.1.length))[k]? = some s.1.length := by rw [List.getElem?_map, hk]; rfl
    rw [hn]
    rw [Res.lift_some]
    rw [Res.bind_ok]
    generalize hz : (s.1.length + 2 ^ 64 - 1) % 2 ^ 64 = z at hdrv ⊢
    rw [hdrv]
    rw [Res.lift_some, Res.bind_ok]
    refine (hrun false s.1.length _ _ hbatch (by rw [hflat, List.length_map, hfl]; exact hn64)).trans ?_
    rw [List.length_map, hfl] at f1
    rw [f1]
    have htext : SortText.text sf = Spec.sectionLines ((o.map back).map (Spec.printed toStr)) := by
      unfold SortText.text
      rw [g1, g2]
      simp only [Bool.false_eq_true, if_false, List.nil_append, SortText.unl, Spec.sectionLines, List.flatMap_map]
      have key : ∀ x ∈ o, formatLine toStr x ++ [nl] = (Spec.printed toStr (back x)).text ++ [nl] := by
        intro x hx
        obtain ⟨r, hr, rfl⟩ := List.mem_map.1 (g3.mem_iff.1 hx)
        rw [hback r hr]
        rw [formatLine_printed]
      clear g1 g2 g3 g4
      induction o with
      | nil => rfl
      | cons x o ih => rw [List.flatMap_cons, List.flatMap_cons, key x (by simp), ih fun y hy => key y (by simp [hy])]
    simp only [Res.map, Res.bind, Option.bind_some, List.flatMap_cons, List.flatMap_nil, List.append_nil, htext, List.append_assoc, List.singleton_append]


/-! ## Sorting, then building -/

/-- Specification: the sections of a backoff model in any order; the 1-grams are the vocabulary. -/
structure Spec.UnsortedProbs {F : Type} (U : List (List Byte)) (data : List (List (List (List Byte) × F × F))) : Prop where
  vocabulary : Spec.Words U
  unigrams : (data[0]?).map (·.map (·.1)) = some (U.map fun w => [w])
  arpa : Spec.ArpaFiles data
  words : ∀ f ∈ data, ∀ r ∈ f, ∀ w ∈ r.1, w ∈ U
  size : ∀ f ∈ data, f.length * U.length < 2 ^ 56

/-- Specification: the printed number is on one line, and `strtod` gives the number back. -/
structure Spec.PrintsExactly {F : Type} (strtod : List Byte → F × Nat) (toStr : F → List Byte) (x : F) : Prop where
  oneLine : nl ∉ toStr x
  prob : ∀ rest, strtod (toStr x ++ tab :: rest) = (x, (toStr x).length)
  backoff : (strtod (tab :: toStr x)).1 = x

/-- Specification: the file put together from the 1-grams of the original file and the sorted sections, each followed by a blank line. -/
def Spec.assembled {F : Type} [Zero F] [DecidableEq F] (toStr : F → List Byte) (sections : List (List (Spec.ArpaLine F) × Nat))
    (sorted : List (List (List (List Byte) × F × F))) : List (List (Spec.ArpaLine F) × Nat) :=
  sections.take 1 ++ (sorted.drop 1).map fun s => (s.map (Spec.printed toStr), 1)

namespace SortArpa
section
variable {F : Type}

/-- The two models list the same n-grams. -/
abbrev Same (a b : List (List (List (List Byte) × F × F))) : Prop := List.Forall₂ List.Perm a b

theorem Same.get {a b : List (List (List (List Byte) × F × F))} (h : Same a b) {k : Nat} {f : List (List (List Byte) × F × F)} (hf : b[k]? = some f) :
    ∃ s, a[k]? = some s ∧ s.Perm f := by
  have hl := h.length_eq
  have hk := (List.getElem?_eq_some_iff.1 hf).1
  refine ⟨a[k]'(by omega), List.getElem?_eq_getElem (by omega), ?_⟩
  obtain ⟨_, h2⟩ := List.forall₂_iff_get.1 h
  have := h2 k (by omega) hk
  rw [(List.getElem?_eq_some_iff.1 hf).2.symm]
  simpa using this

theorem Same.get' {a b : List (List (List (List Byte) × F × F))} (h : Same a b) {k : Nat} {s : List (List (List Byte) × F × F)} (hs : a[k]? = some s) :
    ∃ f, b[k]? = some f ∧ s.Perm f := by
  have hl := h.length_eq
  have hk := (List.getElem?_eq_some_iff.1 hs).1
  obtain ⟨s', e1, e2⟩ := h.get (List.getElem?_eq_getElem (show k < b.length by omega))
  rw [hs] at e1; cases e1
  exact ⟨_, List.getElem?_eq_getElem (by omega), e2⟩

theorem Same.mem {a b : List (List (List (List Byte) × F × F))} (h : Same a b) {s : List (List (List Byte) × F × F)} (hs : s ∈ a) : ∃ f ∈ b, s.Perm f := by
  obtain ⟨k, e⟩ := List.mem_iff_getElem?.1 hs
  obtain ⟨f, e1, e2⟩ := h.get' e
  exact ⟨f, List.mem_of_getElem? e1, e2⟩

theorem Same.tail {a b : List (List (List (List Byte) × F × F))} (h : Same a b) : Same a.tail b.tail := by
  cases h with
  | nil => exact .nil
  | cons _ h => exact h

theorem Same.dropLast {a b : List (List (List (List Byte) × F × F))} (h : Same a b) : Same a.dropLast b.dropLast := by
  induction h with
  | nil => exact .nil
  | cons h hs ih =>
    cases hs with
    | nil => exact .nil
    | cons h' hs' => exact .cons h ih

theorem Same.arpa {a b : List (List (List (List Byte) × F × F))} (h : Same a b) (hb : Spec.ArpaFiles b) : Spec.ArpaFiles a where
  order_min := by rw [h.length_eq]; exact hb.order_min
  order_max := by rw [h.length_eq]; exact hb.order_max
  len := by
    intro k s hs r hr
    obtain ⟨f, e1, e2⟩ := h.get' hs
    exact hb.len k f e1 r (e2.mem_iff.1 hr)
  distinct := by
    intro s hs
    obtain ⟨f, e1, e2⟩ := h.mem hs
    exact (e2.map _).nodup_iff.2 (hb.distinct f e1)
  nonempty := by
    intro s hs e
    obtain ⟨f, e1, e2⟩ := h.mem hs
    rw [e] at e2
    exact hb.nonempty f e1 e2.symm.eq_nil
  suffixes := by
    intro k s s' hs hs' r hr
    obtain ⟨f, e1, e2⟩ := h.get' hs
    obtain ⟨f', e1', e2'⟩ := h.get' hs'
    exact (e2.map _).mem_iff.2 (hb.suffixes k f f' e1 e1' r (e2'.mem_iff.1 hr))
  prefixes := by
    intro k s s' hs hs' r hr
    obtain ⟨f, e1, e2⟩ := h.get' hs
    obtain ⟨f', e1', e2'⟩ := h.get' hs'
    exact (e2.map _).mem_iff.2 (hb.prefixes k f f' e1 e1' r (e2'.mem_iff.1 hr))

theorem Same.quantisable [FloatArith F] {a b : List (List (List (List Byte) × F × F))} (h : Same a b) {pb bb : Nat} (hq : Spec.Quantisable b pb bb) : Spec.Quantisable a pb bb where
  probs := hq.probs
  backoffs := hq.backoffs
  probs_size := by
    intro s hs
    obtain ⟨f, e1, e2⟩ := h.tail.mem hs
    rw [e2.length_eq]; exact hq.probs_size f e1
  backoffs_size := by
    intro s hs
    obtain ⟨f, e1, e2⟩ := h.tail.dropLast.mem hs
    rw [((e2.map _).filter _).length_eq]; exact hq.backoffs_size f e1
  probs_bins := by
    intro s hs
    obtain ⟨f, e1, e2⟩ := h.tail.mem hs
    rw [e2.length_eq]; exact hq.probs_bins f e1
  backoffs_bins := by
    intro s hs
    obtain ⟨f, e1, e2⟩ := h.tail.dropLast.mem hs
    rw [((e2.map _).filter _).length_eq]; exact hq.backoffs_bins f e1

theorem Same.quantised [FloatArith F] {a b : List (List (List (List Byte) × F × F))} (h : Same a b) {pb bb : Nat} {qp qb : Nat → F → F}
    (hq : Spec.Quantised a pb bb qp qb) : Spec.Quantised b pb bb qp qb where
  probs := by
    intro k f hf
    obtain ⟨s, e1, e2⟩ := h.get hf
    obtain ⟨code, c1, c2, c3⟩ := hq.probs k s e1
    refine ⟨code, c1, fun c hc => ?_, fun r hr => c3 r (e2.mem_iff.2 hr)⟩
    obtain ⟨⟨r1, h1, l1⟩, r2, h2, l2⟩ := c2 c hc
    exact ⟨⟨r1, e2.mem_iff.1 h1, l1⟩, r2, e2.mem_iff.1 h2, l2⟩
  backoffs := by
    intro k f hf hk
    obtain ⟨s, e1, e2⟩ := h.get hf
    obtain ⟨c0, c1⟩ := hq.backoffs k s e1 (by rw [h.length_eq]; exact hk)
    refine ⟨fun r hr => c0 r (e2.mem_iff.2 hr), ?_⟩
    rintro ⟨r, hr, hne⟩
    obtain ⟨code, d1, d2, d3⟩ := c1 ⟨r, e2.mem_iff.2 hr, hne⟩
    refine ⟨code, d1, fun c hc => ?_, fun r hr => d3 r (e2.mem_iff.2 hr)⟩
    obtain ⟨⟨r1, h1, l1⟩, r2, h2, l2⟩ := d2 c hc
    exact ⟨⟨r1, e2.mem_iff.1 h1, l1⟩, r2, e2.mem_iff.1 h2, l2⟩

theorem find_perm {s f : List (List (List Byte) × F × F)} (h : s.Perm f) (hn : (f.map (·.1)).Nodup) (g : List (List Byte)) :
    s.find? (fun r => decide (r.1 = g)) = f.find? (fun r => decide (r.1 = g)) := by
  have huniq : ∀ a ∈ f, ∀ b ∈ f, a.1 = g → b.1 = g → a = b := by
    intro a ha b hb h1 h2
    exact List.inj_on_of_nodup_map hn ha hb (h1.trans h2.symm)
  cases hs : s.find? (fun r => decide (r.1 = g)) with
  | none =>
    rw [eq_comm, List.find?_eq_none]
    rw [List.find?_eq_none] at hs
    exact fun x hx => hs x (h.mem_iff.2 hx)
  | some a =>
    cases hf : f.find? (fun r => decide (r.1 = g)) with
    | none =>
      rw [List.find?_eq_none] at hf
      exact absurd (List.find?_some hs) (hf a (h.mem_iff.1 (List.mem_of_find?_eq_some hs)))
    | some b =>
      have h1 : a.1 = g := by simpa using List.find?_some hs
      have h2 : b.1 = g := by simpa using List.find?_some hf
      rw [huniq a (h.mem_iff.1 (List.mem_of_find?_eq_some hs)) b (List.mem_of_find?_eq_some hf) h1 h2]

theorem Same.ofData {a b : List (List (List (List Byte) × F × F))} (h : Same a b) (hb : Spec.ArpaFiles b) (unk : F) (qp qb : Nat → F → F) :
    Spec.Arpa.ofData a unk qp qb = Spec.Arpa.ofData b unk qp qb := by
  unfold Spec.Arpa.ofData
  rw [h.length_eq]
  congr 1
  funext g
  by_cases hg : g = []
  · rw [if_pos hg, if_pos hg]
  · rw [if_neg hg, if_neg hg]
    congr 1
    rw [List.getD_eq_getElem?_getD, List.getD_eq_getElem?_getD]
    cases hs : a[g.length - 1]? with
    | none =>
      have : b[g.length - 1]? = none := by
        rw [List.getElem?_eq_none_iff] at hs ⊢; rw [← h.length_eq]; exact hs
      rw [this]
    | some s =>
      obtain ⟨f, e1, e2⟩ := h.get' hs
      rw [e1]
      exact find_perm e2 (hb.distinct f (List.mem_of_getElem? e1)) g

end
end SortArpa


open SortArpa in
/-- **C52** (sorted sections are model input).  Take a well-formed ARPA file with one blank line after each section, in which the n-grams of each order are in
any order and the 1-grams are the vocabulary.  `sort_arpa` (with any memory that leaves a last batch of more than one n-gram) sorts each of the other
sections; if `std::to_string` loses no digits of the values, then the file put together with these sections is well-formed, lists the same n-grams with the
same values, and its sections are what the builders of the backoff models require (`Spec.ProbFiles`). -/
theorem C52_sorted_sections_are_input {F : Type} [FloatArith F] {strtod : List Byte → F × Nat} {toStr : F → List Byte} {S : StdSortFn (List Byte × F × F)}
    (hS : Spec.StdSortLib S) {hv : Mphf (List Byte) 64} {U : List (List Byte)} {data : List (List (List (List Byte) × F × F))} (h : Spec.UnsortedProbs U data)
    (hb : hv.BuiltFrom U) {voc : List (List (List Byte) × Nat)} (hvoc : voc.map (·.1) = U.map fun w => [w]) {vocMem mem extra : Nat}
    (hmem : (U.map List.length).sum ≤ vocMem) (lead gap : Nat) {sections : List (List (Spec.ArpaLine F) × Nat)} {tail : List Byte}
    (hg : Spec.GoodArpa strtod sections tail) (hone : ∀ s ∈ sections, s.2 = 1) (hd : Spec.ArpaLists sections data)
    (hfit : ∀ f ∈ data, ∀ r ∈ f, (joinSp r.1).length ≤ mem) (hlast : ∀ f ∈ data.tail, Spec.LastBatchLarge mem (f.map fun r => (joinSp r.1, r.2)))
    (hpr : ∀ f ∈ data, ∀ r ∈ f, Spec.PrintsExactly strtod toStr r.2.1 ∧ (r.2.2 ≠ 0 → Spec.PrintsExactly strtod toStr r.2.2)) :
    ∃ sorted : List (List (List (List Byte) × F × F)), List.Forall₂ List.Perm sorted data ∧ sorted[0]? = data[0]? ∧
      (∀ (k : Nat) (s : List (List (List Byte) × F × F)), sorted[k + 1]? = some s →
        sortArpa strtod toStr S hv vocMem mem extra (k + 2) (Spec.gramsText voc) (Spec.arpaText lead gap sections tail) =
          some (.ok (str "\\" ++ decimal (k + 2) ++ str "-grams:" ++ nl :: Spec.sectionLines (s.map (Spec.printed toStr))))) ∧
      Spec.GoodArpa strtod (Spec.assembled toStr sections sorted) tail ∧ Spec.ArpaLists (Spec.assembled toStr sections sorted) sorted ∧
      (∀ s ∈ sorted, ∀ r ∈ s, ∀ w ∈ r.1, Spec.FileWord w) ∧ ∀ ro ≤ 2, Spec.ProbFiles U sorted ro := by
  have hU := h.vocabulary
  have hlen : sections.length = data.length := by have := congrArg List.length hd; simpa [Spec.lines] using this
  have hrec : ∀ (k : Nat) f, data[k]? = some f → ∃ s, sections[k]? = some s ∧ s.1.map (·.record) = f.map fun r => (joinSp r.1, r.2) := by
    intro k f hf
    have hk := (List.getElem?_eq_some_iff.1 hf).1
    refine ⟨_, List.getElem?_eq_getElem (show k < sections.length by omega), ?_⟩
    have := congrArg (·[k]?) hd
    simp only [Spec.lines, List.getElem?_map, hf, List.getElem?_eq_getElem (show k < sections.length by omega), Option.map_some] at this
    exact Option.some.inj this
  have hgram : ∀ (k : Nat) f, data[k]? = some f → ∀ r ∈ f, Spec.GramOf U (k + 1) r.1 := fun k f hf r hr =>
    ⟨h.arpa.len k f hf r hr, h.words f (List.mem_of_getElem? hf) r hr⟩
  have hnpos : ∀ f ∈ data, ∀ r ∈ f, ¬ (0 : F) < r.2.1 := by
    intro f hf r hr
    obtain ⟨k, e⟩ := List.mem_iff_getElem?.1 hf
    obtain ⟨s, -, e2⟩ := hrec k f e
    have hm : (joinSp r.1, r.2) ∈ s.1.map (·.record) := by rw [e2]; exact List.mem_map.2 ⟨r, hr, rfl⟩
    obtain ⟨x, -, hx⟩ := List.mem_map.1 hm
    have : r.2.1 = if 0 < x.prob then 0 else x.prob := by rw [← congrArg (·.2.1) hx]; rfl
    rw [this]
    split
    · exact lt_irrefl _
    · assumption
  obtain ⟨f0, hf0, hu⟩ := Option.map_eq_some_iff.1 h.unigrams
  obtain ⟨sorted, hl, hs⟩ := choose_list data
    (fun k f s => s.Perm f ∧ ((s.map (·.1.reverse)).Pairwise fun p q => p.map (Spec.idIn U) < q.map (Spec.idIn U)) ∧ (k = 0 → s = f) ∧
      (k ≠ 0 → sortArpa strtod toStr S hv vocMem mem extra (k + 1) (Spec.gramsText voc) (Spec.arpaText lead gap sections tail) =
          some (.ok (str "\\" ++ decimal (k + 1) ++ str "-grams:" ++ nl :: Spec.sectionLines (s.map (Spec.printed toStr)))))) (by
    intro k f hf
    have hfm := List.mem_of_getElem? hf
    cases k with
    | zero =>
      rw [hf0] at hf; cases hf
      refine ⟨f0, List.Perm.refl _, ?_, fun _ => rfl, fun hk => absurd rfl hk⟩
      have e : f0.map (·.1.reverse) = U.map fun w => [w] := by
        have : f0.map (·.1.reverse) = (f0.map (·.1)).map List.reverse := by rw [List.map_map]; rfl
        rw [this, hu, List.map_map]; rfl
      rw [e]; exact words_sorted hU.nodup
    | succ k =>
      obtain ⟨s, s1, s2⟩ := hrec (k + 1) f hf
      obtain ⟨o, o1, o2, o3⟩ := C52_sort_arpa_text (toStr := toStr) (extra := extra) hS hU hb hvoc hmem lead gap hg s1
        (by
          intro j x hj hx
          refine ⟨?_, hone x (List.mem_of_getElem? hx)⟩
          have hjd : j < data.length := by have := (List.getElem?_eq_some_iff.1 hx).1; omega
          obtain ⟨x', x1, x2⟩ := hrec j _ (List.getElem?_eq_getElem hjd)
          rw [hx] at x1; cases x1
          intro e
          rw [e] at x2
          exact h.arpa.nonempty _ (List.getElem_mem hjd) (by simpa using x2.symm))
        s2 (fun r hr => ⟨hgram _ f hf r hr, hfit f hfm r hr, ⟨(hpr f hfm r hr).1.oneLine, fun rest => by rw [(hpr f hfm r hr).1.prob rest]⟩,
          fun hne => ((hpr f hfm r hr).2 hne).oneLine⟩)
        (hlast f (List.mem_of_getElem? (i := k) (by rw [List.getElem?_tail]; exact hf)))
      refine ⟨o, o1, ?_, fun hk => absurd hk (by omega), fun _ => o3⟩
      have hrev : (f.map (·.1.reverse)).Nodup := by
        have : f.map (·.1.reverse) = (f.map (·.1)).map List.reverse := by rw [List.map_map]; rfl
        rw [this]; exact (h.arpa.distinct f hfm).map List.reverse_injective
      have hd' := C51_distinct (U := U) (s := o.map fun r => (r.1.reverse, 0)) (f := f.map fun r => (r.1.reverse, 0)) (o1.map _)
        (by rw [List.map_map]; exact hrev)
        (by
          intro r hr w hw
          obtain ⟨x, hx, rfl⟩ := List.mem_map.1 hr
          exact h.words f hfm x hx w (List.mem_reverse.1 hw))
        (by
          rw [List.pairwise_map]
          refine o2.imp fun hab => ?_
          simpa only [List.map_reverse] using hab)
      rw [List.map_map] at hd'
      exact hd')
  have hsame : Same sorted data := by
    refine List.forall₂_iff_get.2 ⟨hl, fun i h1 h2 => ?_⟩
    exact (hs i _ _ (List.getElem?_eq_getElem h2) (List.getElem?_eq_getElem h1)).1
  have h0 : sorted[0]? = data[0]? := by
    obtain ⟨s, e1, -⟩ := hsame.get hf0
    rw [e1, hf0, (hs 0 f0 s hf0 e1).2.2.1 rfl]
  have hA := hsame.arpa h.arpa
  -- the sections of the file put together
  obtain ⟨s0, ss, hss⟩ : ∃ s0 ss, sections = s0 :: ss := List.exists_cons_of_ne_nil hg.nonempty
  obtain ⟨g0, gs, hgs⟩ : ∃ g0 gs, sorted = g0 :: gs := List.exists_cons_of_ne_nil (by
    intro e; rw [e] at hl; have := h.arpa.order_min; simp at hl; omega)
  have hg0 : data[0]? = some g0 := by rw [← h0, hgs]; rfl
  have hasm : Spec.assembled toStr sections sorted = s0 :: gs.map fun s => (s.map (Spec.printed toStr), 1) := by
    unfold Spec.assembled; rw [hss, hgs]; rfl
  have hgood : ∀ f ∈ data, ∀ r ∈ f, (Spec.printed toStr r).Good strtod ∧ (Spec.printed toStr r).record = (joinSp r.1, r.2) := by
    intro f hf r hrf
    obtain ⟨p1, p2⟩ := hpr f hf r hrf
    obtain ⟨k, e⟩ := List.mem_iff_getElem?.1 hf
    have hclean := SortTools.tab_not_mem hU (hgram k f e r hrf)
    refine ⟨⟨hclean.1, ?_, p1.prob, ?_⟩, ?_⟩
    · have e' : (Spec.printed toStr r).text = toStr r.2.1 ++ tab :: (joinSp r.1 ++ if r.2.2 ≠ 0 then tab :: toStr r.2.2 else []) :=
        (formatLine_printed toStr r).symm
      rw [e']
      simp only [List.mem_append, List.mem_cons, not_or]
      refine ⟨p1.oneLine, by decide, hclean.2, ?_⟩
      by_cases hz : r.2.2 = 0
      · rw [if_neg (not_not.2 hz)]; exact List.not_mem_nil
      · rw [if_pos hz, List.mem_cons, not_or]; exact ⟨by decide, (p2 hz).oneLine⟩
    · intro t ht
      unfold Spec.printed at ht ⊢
      simp only at ht ⊢
      split at ht
      · rename_i hz; cases ht; exact (p2 hz).backoff
      · cases ht
    · unfold Spec.ArpaLine.record Spec.printed
      simp only
      rw [if_neg (hnpos f hf r hrf)]
      by_cases hz : r.2.2 = 0
      · rw [if_neg (not_not.2 hz)]
        exact congrArg (Prod.mk _) (Prod.ext rfl hz.symm)
      · rw [if_pos hz]
  have hrest : ∀ s ∈ gs, ∀ r ∈ s, ∃ f ∈ data, r ∈ f := by
    intro s hsm r hrs
    obtain ⟨f, e1, e2⟩ := hsame.mem (s := s) (by rw [hgs]; simp [hsm])
    exact ⟨f, e1, e2.mem_iff.1 hrs⟩
  have hG : Spec.GoodArpa strtod (Spec.assembled toStr sections sorted) tail := by
    rw [hasm]
    refine ⟨by simp, ?_, ?_, ?_, hg.tail⟩
    · intro s hsm
      rcases List.mem_cons.1 hsm with rfl | hsm
      · exact hg.counts _ (by rw [hss]; simp)
      · obtain ⟨x, hx, rfl⟩ := List.mem_map.1 hsm
        obtain ⟨f, e1, e2⟩ := hsame.mem (s := x) (by rw [hgs]; simp [hx])
        have := h.size f e1
        have hUpos := List.length_pos_iff.2 hU.nonempty
        have : f.length ≤ f.length * U.length := Nat.le_mul_of_pos_right _ hUpos
        simp only [List.length_map]
        rw [e2.length_eq]; omega
    · intro s hsm y hy
      rcases List.mem_cons.1 hsm with rfl | hsm
      · exact hg.lines _ (by rw [hss]; simp) y hy
      · obtain ⟨x, hx, rfl⟩ := List.mem_map.1 hsm
        obtain ⟨r, hrx, rfl⟩ := List.mem_map.1 hy
        obtain ⟨f, e1, e2⟩ := hrest x hx r hrx
        exact (hgood f e1 r e2).1
    · intro s hsl
      rcases List.mem_cons.1 (List.mem_of_getLast? hsl) with rfl | hsm
      · exact hone _ (by rw [hss]; simp)
      · obtain ⟨x, hx, rfl⟩ := List.mem_map.1 hsm; rfl
  have hlists : Spec.ArpaLists (Spec.assembled toStr sections sorted) sorted := by
    unfold Spec.ArpaLists Spec.lines
    rw [hasm, hgs, List.map_cons, List.map_cons]
    obtain ⟨s', e1, e2⟩ := hrec 0 g0 hg0
    rw [hss] at e1; cases e1
    rw [e2, List.map_map]
    congr 1
    apply List.map_congr_left
    intro s hsm
    simp only [Function.comp, List.map_map]
    apply List.map_congr_left
    intro r hrs
    obtain ⟨f, e1, e2⟩ := hrest s hsm r hrs
    exact (hgood f e1 r e2).2
  have hlev : ∀ (k : Nat) (l : List (List (List Byte))), (sorted.map (·.map (·.1.reverse)))[k]? = some l →
      ∃ f s : List (List (List Byte) × F × F), data[k]? = some f ∧ sorted[k]? = some s ∧ s.Perm f ∧ l = s.map (·.1.reverse) := by
    intro k l e
    rw [List.getElem?_map] at e
    obtain ⟨s, e1, e2⟩ := Option.map_eq_some_iff.1 e
    obtain ⟨f, e3, e4⟩ := hsame.get' e1
    exact ⟨f, s, e3, e1, e4, e2.symm⟩
  have hP : ∀ ro ≤ 2, Spec.ProbFiles U sorted ro := by
    intro ro hro
    refine ⟨hA, ⟨hU.nodup, ?_, ?_, ?_, ?_, ?_, ?_, ?_⟩, hro, ?_⟩
    · rw [List.getElem?_map, h0, hf0, Option.map_some]
      have : f0.map (·.1.reverse) = (f0.map (·.1)).map List.reverse := by rw [List.map_map]; rfl
      rw [this, hu, List.map_map]; rfl
    · intro k l e
      obtain ⟨f, s, e1, e2, e3, rfl⟩ := hlev k l e
      intro e4
      exact hA.nonempty s (List.mem_of_getElem? e2) (by simpa using e4)
    · intro k l e q hq
      obtain ⟨f, s, e1, e2, e3, rfl⟩ := hlev k l e
      obtain ⟨r, hr', rfl⟩ := List.mem_map.1 hq
      rw [List.length_reverse]; exact hA.len k s e2 r hr'
    · intro k l e q hq w hw
      obtain ⟨f, s, e1, e2, e3, rfl⟩ := hlev k l e
      obtain ⟨r, hr', rfl⟩ := List.mem_map.1 hq
      exact h.words f (List.mem_of_getElem? e1) r (e3.mem_iff.1 hr') w (List.mem_reverse.1 hw)
    · intro k l e
      obtain ⟨f, s, e1, e2, e3, rfl⟩ := hlev k l e
      exact (hs k f s e1 e2).2.1
    · intro k l l' e e' q hq
      obtain ⟨f, s, e1, e2, e3, rfl⟩ := hlev k l e
      obtain ⟨g, s', g1, g2, g3, rfl⟩ := hlev (k + 1) l' e'
      obtain ⟨r, hr', rfl⟩ := List.mem_map.1 hq
      obtain ⟨x, x1, x2⟩ := List.mem_map.1 (hA.suffixes k s s' e2 g2 r hr')
      exact List.mem_map.2 ⟨x, x1, by rw [x2, List.dropLast_reverse]⟩
    · refine Trie.windows_of_suffixes ?_
      intro _ k l l' e e' q hq
      obtain ⟨f, s, e1, e2, e3, rfl⟩ := hlev k l e
      obtain ⟨g, s', g1, g2, g3, rfl⟩ := hlev (k + 1) l' e'
      obtain ⟨r, hr', rfl⟩ := List.mem_map.1 hq
      obtain ⟨x, x1, x2⟩ := List.mem_map.1 (hA.prefixes k s s' e2 g2 r hr')
      exact List.mem_map.2 ⟨x, x1, by rw [x2, List.tail_reverse]⟩
    · intro s hsm
      obtain ⟨f, e1, e2⟩ := hsame.mem hsm
      rw [e2.length_eq]; exact h.size f e1
  refine ⟨sorted, hsame, h0, fun k s e => ?_, hG, hlists, ?_, hP⟩
  · obtain ⟨f, e1, -⟩ := hsame.get' e
    exact (hs (k + 1) f s e1 e).2.2.2 (by omega)
  · intro s hsm r hrs w hw
    obtain ⟨f, e1, e2⟩ := hsame.mem hsm
    exact hU.words w (h.words f e1 r (e2.mem_iff.1 hrs) w hw)

open SortArpa in
/-- **C52** (sorting, then building).  Take a well-formed ARPA file with one blank line after each section, in which the n-grams of each order are in any
order and the 1-grams are the vocabulary.  `sort_arpa` (with any memory that leaves a last batch of more than one n-gram) sorts each of the other
sections; if `std::to_string` loses no digits of the values, then from the file put together with these sections the builder of backoff tries makes a
trie that scores every sentence like the (quantised) model of the original file. -/
theorem C52_sort_then_build {F : Type} [FloatArith F] {strtod : List Byte → F × Nat} {toStr : F → List Byte} {S : StdSortFn (List Byte × F × F)}
    (hS : Spec.StdSortLib S) {hv : Mphf (List Byte) 64} {U : List (List Byte)} {data : List (List (List (List Byte) × F × F))} (h : Spec.UnsortedProbs U data)
    (hb : hv.BuiltFrom U) {voc : List (List (List Byte) × Nat)} (hvoc : voc.map (·.1) = U.map fun w => [w]) {vocMem mem extra : Nat}
    (hmem : (U.map List.length).sum ≤ vocMem) (lead gap : Nat) {sections : List (List (Spec.ArpaLine F) × Nat)} {tail : List Byte}
    (hg : Spec.GoodArpa strtod sections tail) (hone : ∀ s ∈ sections, s.2 = 1) (hd : Spec.ArpaLists sections data)
    (hfit : ∀ f ∈ data, ∀ r ∈ f, (joinSp r.1).length ≤ mem) (hlast : ∀ f ∈ data.tail, Spec.LastBatchLarge mem (f.map fun r => (joinSp r.1, r.2)))
    (hpr : ∀ f ∈ data, ∀ r ∈ f, Spec.PrintsExactly strtod toStr r.2.1 ∧ (r.2.2 ≠ 0 → Spec.PrintsExactly strtod toStr r.2.2)) :
    ∃ sorted : List (List (List (List Byte) × F × F)), sorted.length = data.length ∧ sorted[0]? = data[0]? ∧
      (∀ (k : Nat) (s : List (List (List Byte) × F × F)), sorted[k + 1]? = some s →
        sortArpa strtod toStr S hv vocMem mem extra (k + 2) (Spec.gramsText voc) (Spec.arpaText lead gap sections tail) =
          some (.ok (str "\\" ++ decimal (k + 2) ++ str "-grams:" ++ nl :: Spec.sectionLines (s.map (Spec.printed toStr))))) ∧
      ∀ (fb : FloatBits F) {sort : List F → List F}, (∀ l, (sort l).Perm l ∧ (sort l).Pairwise (· ≤ ·)) → ∀ (negInf default unk : F) {ro pb bb : Nat}, ro ≤ 2 →
        Spec.Quantisable data pb bb → pb + bb ≤ 58 →
        (∀ f0, data[0]? = some f0 → ∀ r ∈ f0, fb.dec (fb.enc r.2.1) = r.2.1 ∧ fb.dec (fb.enc r.2.2) = r.2.2) →
        ∀ {hr : Nat → Mphf Nat 64}, Spec.RangeHashes hr (TrieProb.asCounts sorted) → ∀ {junk : Nat → List W}, (∀ k, junk k ≠ []) →
        ∃ t qp qb, TrieProb.buildArpa strtod fb sort negInf default hv (GramsImpl.fastEF hr) (RanksImpl.cv junk) ro unk pb bb sections.length
            (Spec.arpaText lead gap (Spec.assembled toStr sections sorted) tail) = some (.ok t) ∧
          Spec.Quantised data pb bb qp qb ∧
          ∀ (sentence : List (List Byte)) (d : Nat) (one : F), (∀ w ∈ sentence, Spec.Recognised hv U w) →
            (t.scorer fb).scoreSentence d one sentence =
              some ((Spec.Arpa.ofData data (Spec.unkProb Spec.unkText default (data.getD 0 []) unk) qp qb).wordScores sentence) := by
  have hlen : sections.length = data.length := by have := congrArg List.length hd; simpa [Spec.lines] using this
  obtain ⟨sorted, hsame, h0, hso, hG, hlists, hwd, hP⟩ := C52_sorted_sections_are_input (extra := extra) hS h hb hvoc hmem lead gap hg hone hd hfit hlast hpr
  have hl : sorted.length = data.length := hsame.length_eq
  refine ⟨sorted, hl, h0, hso, ?_⟩
  intro fb sort hsort negInf default unk ro pb bb hro hq hbits hfb hr hh junk hj
  have hsame : Same sorted data := hsame
  obtain ⟨t, qp, qb, t1, t2, t3⟩ := C44_trie_prob_arpa_to_scores lead gap hG fb hsort negInf default unk hlists
    (fun s hsm r hrs w hw => ⟨(hwd s hsm r hrs w hw).1, (hwd s hsm r hrs w hw).2.1⟩)
    (hP ro hro) (hsame.quantisable hq) hbits (by rw [h0]; exact hfb) hb hh hj
  refine ⟨t, qp, qb, ?_, hsame.quantised t2, ?_⟩
  · rw [← t1]
    congr 1
    have := congrArg List.length hlists
    rw [List.length_map, Spec.lines, List.length_map] at this
    rw [this, hl, hlen]
  · intro sentence d one hsen
    rw [t3 sentence d one hsen, hsame.ofData h.arpa, List.getD_eq_getElem?_getD, List.getD_eq_getElem?_getD, h0]


/-! ## What goes wrong -/

/-- C52, defect: with two blank lines between the 1-grams and the 2-grams (which the readers of ARPA files accept, C43) the heading of the section is taken
for its first n-gram, and the last n-gram is left out. -/
theorem C52_two_blank_lines_defect :
    ∃ sections : List (List (Spec.ArpaLine Int) × Nat),
      Spec.GoodArpa ArpaExample.strtod sections [] ∧
      (sections.getD 1 ([], 0)).1.map (·.record) = [(str "a b", -5, 0), (str "b a", -6, 0)] ∧
      Option.bind ((ArpaParser.new (Spec.arpaText 0 0 sections [])).readHeader 100) (fun e => match e with
        | .ok r => (SortArpa.skipTo 100 1 r.2.readLine).bind fun p =>
            SortArpa.driver ArpaExample.strtod (r.1.getD 1 0 - 1) 100 100 0 p (Pool.new 100 0)
        | .error _ => none) = some [[(str "2-grams:", 0, 0), (str "a b", -5, 0)]] := by
  refine ⟨[([ArpaExample.line 1 "a" (some 2), ArpaExample.line 3 "b" (some 4)], 2), ([ArpaExample.line 5 "a b" none, ArpaExample.line 6 "b a" none], 1)], ?_,
    by decide +kernel, by decide +kernel⟩
  refine ⟨by simp, ?_, ?_, ?_, .inl rfl⟩
  · intro s hs; simp at hs; rcases hs with rfl | rfl <;> simp
  · intro s hs l hl
    simp only [List.mem_cons, List.not_mem_nil, or_false] at hs
    rcases hs with rfl | rfl <;> simp only [List.mem_cons, List.not_mem_nil, or_false] at hl <;> rcases hl with rfl | rfl
    · exact ⟨by decide, by decide, fun rest => rfl, by intro t ht; cases ht; decide⟩
    · exact ⟨by decide, by decide, fun rest => rfl, by intro t ht; cases ht; decide⟩
    · exact ⟨by decide, by decide, fun rest => rfl, by intro t ht; cases ht⟩
    · exact ⟨by decide, by decide, fun rest => rfl, by intro t ht; cases ht⟩
  · intro s hs; simp at hs; subst hs; rfl

/-! ## A concrete run -/

namespace SortArpaExample

open MphCountExample (w)
open FilesExample (sections strtod good numbers)

/-- A `to_string` for the numbers of the file. -/
def toStr (x : ℚ) : List Byte := ((numbers.find? fun e => decide (e.2 = x)).map (·.1)).getD []

/-- The numbers of the file. -/
theorem exact (x : ℚ) (hx : x ∈ numbers.map (·.2)) : Spec.PrintsExactly strtod toStr x := by
  simp only [numbers, List.map_cons, List.map_nil, List.mem_cons, List.not_mem_nil, or_false] at hx
  have e1 : toStr (-1 / 2) = str "-0.5" := by decide +kernel
  have e2 : toStr (-1 / 4) = str "-0.25" := by decide +kernel
  have e3 : toStr (-1 / 8) = str "-0.125" := by decide +kernel
  rcases hx with rfl | rfl | rfl | rfl | rfl | rfl <;>
    exact ⟨by decide +kernel, fun rest => by first | rfl | (rw [e1]; rfl) | (rw [e2]; rfl) | (rw [e3]; rfl), by decide +kernel⟩

/-- The data of C28's example, with the bigrams and the trigrams backwards. -/
def data : List (List (List (List Byte) × ℚ × ℚ)) :=
  [MphProbExample.data.getD 0 [], (MphProbExample.data.getD 1 []).reverse, (MphProbExample.data.getD 2 []).reverse]

/-- The sections, with the bigrams and the trigrams backwards. -/
def secs : List (List (Spec.ArpaLine ℚ) × Nat) := sections.zipIdx.map fun s => if s.2 = 0 then s.1 else (s.1.1.reverse, s.1.2)

theorem same : SortArpa.Same data MphProbExample.data :=
  .cons (List.Perm.refl _) (.cons (List.reverse_perm _) (.cons (List.reverse_perm _) .nil))

theorem unsorted : Spec.UnsortedProbs [w 0, w 1, w 2] data where
  vocabulary := SortToolsExample.words
  unigrams := rfl
  arpa := same.arpa MphProbExample.data_input.arpa
  words := by
    intro f hf r hr v hv
    obtain ⟨g, g1, g2⟩ := same.mem hf
    obtain ⟨k, e⟩ := List.mem_iff_getElem?.1 g1
    have := MphProbExample.data_trie.trie.words k (g.map (·.1.reverse)) (by rw [List.getElem?_map, e]; rfl) r.1.reverse
      (List.mem_map.2 ⟨r, g2.mem_iff.1 hr, rfl⟩) v (List.mem_reverse.2 hv)
    exact this
  size := by
    intro f hf
    obtain ⟨g, g1, g2⟩ := same.mem hf
    rw [g2.length_eq]
    exact MphProbExample.data_trie.size g g1

theorem secs_good : Spec.GoodArpa strtod secs [nl] where
  nonempty := by simp [secs, sections]
  counts := by intro s hs; simp [secs, sections] at hs; rcases hs with rfl | rfl | rfl <;> simp
  lines := by
    intro s hs l hl
    simp [secs] at hs
    obtain ⟨a, n, i, h1, rfl⟩ := hs
    have hm : (a, n) ∈ sections := by
      rw [List.mk_mem_zipIdx_iff_getElem?] at h1
      exact List.mem_of_getElem? h1
    refine FilesExample.lines_good (a, n) hm l ?_
    split at hl
    · exact hl
    · exact List.mem_reverse.1 hl
  last := by intro s hs; simp [secs, sections] at hs; subst hs; rfl
  tail := .inr ⟨[], rfl⟩

theorem lists : Spec.ArpaLists secs data := by
  unfold Spec.ArpaLists
  decide +kernel

/-- The hypotheses of C52 are met by this file: with memory for 12 bytes the bigrams are sorted in one batch, the trigrams in two.  -/
example := C52_sort_then_build (extra := 0) (SortToolsExample.S_ok (R := List Byte × ℚ × ℚ)) unsorted
  (TextExample.built3 (keys := [w 0, w 1, w 2]) rfl (by decide)) (voc := [([w 0], 1), ([w 1], 1), ([w 2], 1)]) rfl (vocMem := 10) (mem := 12) (by decide) 0 0
  secs_good (by intro s hs; simp [secs, sections] at hs; rcases hs with rfl | rfl | rfl <;> rfl) lists
  (by intro f hf; simp [data] at hf; rcases hf with rfl | rfl | rfl <;> decide)
  (by
    intro f hf
    simp [data] at hf
    rcases hf with rfl | rfl
    · exact ⟨(Spec.greedy 12 [] ((data.getD 1 []).map fun r => (joinSp r.1, r.2))).getLastD [], by decide +kernel, by decide +kernel⟩
    · exact ⟨(Spec.greedy 12 [] ((data.getD 2 []).map fun r => (joinSp r.1, r.2))).getLastD [], by decide +kernel, by decide +kernel⟩)
  (by
    intro f hf r hr
    obtain ⟨g, g1, g2⟩ := same.mem hf
    have := g2.mem_iff.1 hr
    simp [MphProbExample.data] at g1
    rcases g1 with rfl | rfl | rfl <;> simp at this <;> rcases this with rfl | rfl | rfl | rfl <;>
      exact ⟨exact _ (by simp [numbers]), fun h => by first | exact absurd rfl h | exact exact _ (by simp [numbers])⟩)

/-- The same for `C52_sorted_sections_are_input`. -/
example := C52_sorted_sections_are_input (extra := 0) (SortToolsExample.S_ok (R := List Byte × ℚ × ℚ)) unsorted
  (TextExample.built3 (keys := [w 0, w 1, w 2]) rfl (by decide)) (voc := [([w 0], 1), ([w 1], 1), ([w 2], 1)]) rfl (vocMem := 10) (mem := 12) (by decide) 0 0
  secs_good (by intro s hs; simp [secs, sections] at hs; rcases hs with rfl | rfl | rfl <;> rfl) lists
  (by intro f hf; simp [data] at hf; rcases hf with rfl | rfl | rfl <;> decide)
  (by
    intro f hf
    simp [data] at hf
    rcases hf with rfl | rfl
    · exact ⟨(Spec.greedy 12 [] ((data.getD 1 []).map fun r => (joinSp r.1, r.2))).getLastD [], by decide +kernel, by decide +kernel⟩
    · exact ⟨(Spec.greedy 12 [] ((data.getD 2 []).map fun r => (joinSp r.1, r.2))).getLastD [], by decide +kernel, by decide +kernel⟩)
  (by
    intro f hf r hr
    obtain ⟨g, g1, g2⟩ := same.mem hf
    have := g2.mem_iff.1 hr
    simp [MphProbExample.data] at g1
    rcases g1 with rfl | rfl | rfl <;> simp at this <;> rcases this with rfl | rfl | rfl | rfl <;>
      exact ⟨exact _ (by simp [numbers]), fun h => by first | exact absurd rfl h | exact exact _ (by simp [numbers])⟩)

end SortArpaExample

end Tongrams
