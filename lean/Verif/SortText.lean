import Verif.Sorter
import Verif.Parsers
import Verif.TrieCount
import Verif.SaveModels

/-!
# The sorter on files of bytes (sorters/sorter.hpp)

`Sorter.lean` follows the sorter on lists of lines.  Here the files are bytes: they are written with '\n' after each line, opened in append mode, and
read back with `std::getline`, `peek` and `eof`; comparisons and parsing may be undefined.  The two models are related by `SortText.run_eq`.
-/

set_option linter.unusedSectionVars false

namespace Tongrams

/-- `std::getline(is, line)` as a condition: whether a line was read. -/
def getlineOK (is : IStream) : Bool := !is.eof && decide (is.rest ≠ [])

/-- `building_util::is_empty` (include/utils/util.hpp:322-324): `peek` sets `eofbit` at the end. -/
def streamEmpty (is : IStream) : Bool × IStream := if is.eof ∨ is.rest = [] then (true, { is with eof := true }) else (false, is)

/-- `std::sort` with a comparator that may be undefined. -/
abbrev StdSortFn (R : Type) := (R → R → Option Bool) → List R → Option (List R)

/-- Specification: the comparator is defined on the elements of the list and is a strict weak order of them. -/
structure Spec.StrictWeakOn {R : Type} (cmp : R → R → Option Bool) (l : List R) : Prop where
  defined : ∀ a ∈ l, ∀ b ∈ l, ∃ v, cmp a b = some v
  irrefl : ∀ a ∈ l, cmp a a = some false
  trans : ∀ a ∈ l, ∀ b ∈ l, ∀ c ∈ l, cmp a b = some true → cmp b c = some true → cmp a c = some true
  negtrans : ∀ a ∈ l, ∀ b ∈ l, ∀ c ∈ l, cmp a b = some false → cmp b c = some false → cmp a c = some false

/-- Specification of `std::sort` (C++17 28.7.1): nothing is promised unless the comparator is a strict weak order. -/
def Spec.StdSortLib {R : Type} (S : StdSortFn R) : Prop :=
  ∀ (cmp : R → R → Option Bool) (l : List R), Spec.StrictWeakOn cmp l →
    ∃ s, S cmp l = some s ∧ s.Perm l ∧ s.Pairwise fun a b => cmp b a = some false

namespace SortText
variable {R : Type}

/-- The loop of `merge` (sorter.hpp:130-152): the bytes written and the two streams after it. -/
def mergeLoop (cmp : R → R → Option Bool) (prs : List Byte → Option R) : Nat → IStream → List Byte → R → IStream → List Byte → R →
    Option (List Byte × IStream × IStream)
  | 0, _, _, _, _, _, _ => none
  | n + 1, i1, line1, t1, i2, line2, t2 =>
    (cmp t1 t2).bind fun b =>
    if b then
      let r := getline i1 line1
      if getlineOK i1 then (prs r.2).bind fun t1 => (mergeLoop cmp prs n r.1 r.2 t1 i2 line2 t2).map fun x => (line1 ++ nl :: x.1, x.2)
      else some (line1 ++ nl :: (line2 ++ [nl]), r.1, i2)
    else
      let r := getline i2 line2
      if getlineOK i2 then (prs r.2).bind fun t2 => (mergeLoop cmp prs n i1 line1 t1 r.1 r.2 t2).map fun x => (line2 ++ nl :: x.1, x.2)
      else some (line2 ++ nl :: (line1 ++ [nl]), i1, r.1)

/-- The loops that copy what is left (sorter.hpp:155-165). -/
def copyLines : Nat → IStream → List Byte → Option (List Byte)
  | 0, _, _ => none
  | n + 1, is, line => if getlineOK is then let r := getline is line; (copyLines n r.1 r.2).map fun x => r.2 ++ nl :: x else some []

/-- `merge` from line 123 on: everything it writes after the number of n-grams. -/
def mergeBody (cmp : R → R → Option Bool) (prs : List Byte → Option R) (i1 i2 : IStream) : Option (List Byte) :=
  let fuel := i1.rest.length + i2.rest.length + 1
  let e1 := streamEmpty i1
  let e2 := if e1.1 then (false, i2) else streamEmpty i2
  (if ¬ e1.1 ∧ ¬ e2.1 then
      let r1 := getline e1.2 []
      let r2 := getline e2.2 []
      (prs r1.2).bind fun t1 => (prs r2.2).bind fun t2 => mergeLoop cmp prs fuel r1.1 r1.2 t1 r2.1 r2.2 t2
    else some ([], e1.2, e2.2)).bind fun x =>
  (if x.2.1.eof then copyLines fuel x.2.2 [] else copyLines fuel x.2.1 []).map fun y => x.1 ++ y

/-- The number of n-grams announced by a file (sorter.hpp:107-114): 0 if it is empty, an exception if its first line is not a number. -/
def readNum (is : IStream) : Res (W × IStream) :=
  let e := streamEmpty is
  if e.1 then some (.ok (0#64, e.2)) else
  let r := getline e.2 []
  match stoull r.2 with
  | .error () => some (.error ())
  | .ok v => some (.ok (v, r.1))

/-- `merge` (sorter.hpp:92-168): the bytes appended to the output. -/
def merge (cmp : R → R → Option Bool) (prs : List Byte → Option R) (counts : Bool) (f1 f2 : List Byte) : Res (List Byte) :=
  if counts then
    Res.bind (readNum ⟨f1, false⟩) fun r1 => Res.bind (readNum ⟨f2, false⟩) fun r2 =>
    if r1.1 + r2.1 = 0#64 then some (.error ())
    else Res.bind (Res.lift (mergeBody cmp prs r1.2 r2.2)) fun x => some (.ok (decimal (r1.1 + r2.1).toNat ++ nl :: x))
  else Res.lift (mergeBody cmp prs ⟨f1, false⟩ ⟨f2, false⟩)

/-- An entry of `m_files` (sorter.hpp:41): a temporary file with its bytes (its name is taken not to exist before), or the output file. -/
inductive Entry where
  | tmp (f : List Byte)
  | output
  deriving DecidableEq

/-- `merge_batches` (sorter.hpp:49-67); `out` is what the output file contains.  Merging the output file itself is left undefined. -/
def mergeBatches (cmp : R → R → Option Bool) (prs : List Byte → Option R) (counts : Bool) (out : List Byte) : List Entry → Res (List Byte)
  | [] => some (.ok out)
  | [_] => some (.ok out)
  | .tmp f1 :: .tmp f2 :: rest =>
    Res.bind (merge cmp prs counts f1 f2) fun f =>
    if rest = [] then some (.ok (out ++ f)) else mergeBatches cmp prs counts out (rest ++ [.tmp f])
  | .output :: _ :: _ => none
  | _ :: .output :: _ => none
termination_by l => l.length

/-- `flush` (sorter.hpp:69-90): the bytes appended. -/
def flush (fmt : R → List Byte) (counts : Bool) (b : List R) : List Byte :=
  (if counts then decimal b.length ++ [nl] else []) ++ b.flatMap fun r => fmt r ++ [nl]

/-- The calls of `sort(begin, end)` on the batches (sorter.hpp:23-35): `m_files` and the output file. -/
def sortBatches (S : StdSortFn R) (cmp : R → R → Option Bool) (fmt : R → List Byte) (counts : Bool) (n : Nat) :
    List (List R) → List Entry → List Byte → Option (List Entry × List Byte)
  | [], files, out => some (files, out)
  | b :: bs, files, out =>
    if b = [] then sortBatches S cmp fmt counts n bs files out else
    (S cmp b).bind fun s =>
    if b.length = n then sortBatches S cmp fmt counts n bs (files ++ [.output]) (out ++ flush fmt counts s)
    else sortBatches S cmp fmt counts n bs (files ++ [.tmp (flush fmt counts s)]) out

/-- A sorter from its construction to its destruction (sorter.hpp:12-21): the output file, which contained `old` (all files are opened in append mode,
sorter.hpp:73 and 99). -/
def run (S : StdSortFn R) (cmp : R → R → Option Bool) (fmt : R → List Byte) (prs : List Byte → Option R) (counts : Bool) (n : Nat) (old : List Byte)
    (batches : List (List R)) : Res (List Byte) :=
  Res.bind (Res.lift (sortBatches S cmp fmt counts n batches [] old)) fun x => mergeBatches cmp prs counts x.2 x.1

/-! ## Proofs -/

/-- Lines, each followed by '\n'. -/
def unl (ls : List (List Byte)) : List Byte := ls.flatMap (· ++ [nl])

/-- The bytes of a file of lines. -/
def text (f : SFile (List Byte)) : List Byte := (match f.num with | some k => decimal k ++ [nl] | none => []) ++ unl f.lines

theorem unl_cons (l : List Byte) (ls : List (List Byte)) : unl (l :: ls) = l ++ nl :: unl ls := by simp [unl]

theorem unl_length (ls : List (List Byte)) : ls.length ≤ (unl ls).length := by
  induction ls with
  | nil => simp
  | cons l ls ih => rw [unl_cons]; simp; omega

theorem getlineOK_cons (l : List Byte) (ls : List (List Byte)) : getlineOK ⟨unl (l :: ls), false⟩ = true := by simp [getlineOK, unl_cons]
theorem getlineOK_nil : getlineOK ⟨unl [], false⟩ = false := by simp [getlineOK, unl]

theorem getline_unl {l : List Byte} (h : nl ∉ l) (ls : List (List Byte)) (line : List Byte) :
    getline ⟨unl (l :: ls), false⟩ line = (⟨unl ls, false⟩, l) := by rw [unl_cons]; exact getline_line h

theorem getline_nil (line : List Byte) : (getline ⟨unl [], false⟩ line).1 = ⟨[], true⟩ := by simp [getline, unl]

theorem copyLines_unl : ∀ (ls : List (List Byte)) (n : Nat) (line : List Byte), (∀ l ∈ ls, nl ∉ l) → ls.length < n →
    copyLines n ⟨unl ls, false⟩ line = some (unl ls)
  | [], 0, _, _, h => by simp at h
  | [], n + 1, line, _, _ => by rw [copyLines, if_neg (by rw [getlineOK_nil]; simp)]; rfl
  | l :: ls, 0, _, _, h => by simp at h
  | l :: ls, n + 1, line, h, hn => by
    rw [copyLines, if_pos (getlineOK_cons _ _)]
    simp only [getline_unl (h l (by simp))]
    rw [copyLines_unl ls n l (fun x hx => h x (by simp [hx])) (by simp at hn; omega), Option.map_some, unl_cons]

/-- The good lines: without '\n', parsed, and comparable. -/
structure Good (cmp : R → R → Option Bool) (prs : List Byte → Option R) (lt : R → R → Bool) (p : List Byte → R) (G : List Byte → Prop) : Prop where
  nl : ∀ l, G l → nl ∉ l
  prs : ∀ l, G l → prs l = some (p l)
  cmp : ∀ a b, G a → G b → cmp (p a) (p b) = some (lt (p a) (p b))

variable {cmp : R → R → Option Bool} {prs : List Byte → Option R} {lt : R → R → Bool} {p : List Byte → R} {G : List Byte → Prop}

theorem mergeLoop_unl (hG : Good cmp prs lt p G) (k : Nat) : ∀ (n : Nat) (a : List Byte) (l1 : List (List Byte)) (b : List Byte) (l2 : List (List Byte)),
    (∀ l ∈ a :: l1, G l) → (∀ l ∈ b :: l2, G l) → l1.length + l2.length < n → l1.length < k → l2.length < k →
    ((mergeLoop cmp prs n ⟨unl l1, false⟩ a (p a) ⟨unl l2, false⟩ b (p b)).bind fun x =>
      (if x.2.1.eof then copyLines k x.2.2 [] else copyLines k x.2.1 []).map fun y => x.1 ++ y) = some (unl (Sorter.mergeLoop lt p a l1 b l2)) := by
  intro n
  induction n with
  | zero => intro a l1 b l2 _ _ h; omega
  | succ n ih =>
    intro a l1 b l2 h1 h2 hn hk1 hk2
    rw [mergeLoop, hG.cmp a b (h1 a (by simp)) (h2 b (by simp)), Option.bind_some, Sorter.mergeLoop.eq_def]
    by_cases hlt : lt (p a) (p b) = true
    · rw [if_pos hlt, if_pos hlt]
      cases l1 with
      | nil =>
        simp only
        rw [if_neg (by rw [getlineOK_nil]; simp), Option.bind_some]
        simp only
        rw [getline_nil, if_pos rfl, copyLines_unl l2 k [] (fun x hx => hG.nl _ (h2 x (by simp [hx]))) hk2]
        simp [unl_cons]
      | cons a' l1 =>
        simp only
        rw [if_pos (getlineOK_cons _ _), getline_unl (hG.nl _ (h1 a' (by simp)))]
        simp only
        rw [hG.prs _ (h1 a' (by simp)), Option.bind_some]
        have := ih a' l1 b l2 (fun l hl => h1 l (by simp at hl ⊢; tauto)) h2 (by simp at hn; omega) (by simp at hk1; omega) hk2
        obtain ⟨x, e1, e2⟩ := Option.bind_eq_some_iff.1 this
        rw [e1, Option.map_some, Option.bind_some]
        obtain ⟨y, e3, e4⟩ := Option.map_eq_some_iff.1 e2
        simp only at e3 ⊢
        rw [e3, Option.map_some, unl_cons, ← e4]
        simp
    · rw [if_neg hlt, if_neg hlt]
      cases l2 with
      | nil =>
        simp only
        rw [if_neg (by rw [getlineOK_nil]; simp), Option.bind_some]
        simp only
        rw [if_neg (by simp), copyLines_unl l1 k [] (fun x hx => hG.nl _ (h1 x (by simp [hx]))) hk1]
        simp [unl_cons]
      | cons b' l2 =>
        simp only
        rw [if_pos (getlineOK_cons _ _), getline_unl (hG.nl _ (h2 b' (by simp)))]
        simp only
        rw [hG.prs _ (h2 b' (by simp)), Option.bind_some]
        have := ih a l1 b' l2 h1 (fun l hl => h2 l (by simp at hl ⊢; tauto)) (by simp at hn; omega) hk1 (by simp at hk2; omega)
        obtain ⟨x, e1, e2⟩ := Option.bind_eq_some_iff.1 this
        rw [e1, Option.map_some, Option.bind_some]
        obtain ⟨y, e3, e4⟩ := Option.map_eq_some_iff.1 e2
        simp only at e3 ⊢
        rw [e3, Option.map_some, unl_cons, ← e4]
        simp

theorem mergeBody_unl (hG : Good cmp prs lt p G) (l1 l2 : List (List Byte)) (h1 : ∀ l ∈ l1, G l) (h2 : ∀ l ∈ l2, G l) :
    mergeBody cmp prs ⟨unl l1, false⟩ ⟨unl l2, false⟩ = some (unl (Sorter.mergeLines lt p l1 l2)) := by
  have u1 := unl_length l1
  have u2 := unl_length l2
  unfold mergeBody
  cases l1 with
  | nil =>
    have e : streamEmpty ⟨unl [], false⟩ = (true, ⟨[], true⟩) := by simp [streamEmpty, unl]
    simp only [e]
    rw [if_neg (by simp), Option.bind_some]
    simp only [if_true]
    rw [copyLines_unl l2 _ [] (fun x hx => hG.nl _ (h2 x hx)) (by omega)]
    cases l2 <;> simp [Sorter.mergeLines]
  | cons a l1 =>
    have e : streamEmpty ⟨unl (a :: l1), false⟩ = (false, ⟨unl (a :: l1), false⟩) := by simp [streamEmpty, unl_cons]
    simp only [e]
    cases l2 with
    | nil =>
      have e' : streamEmpty ⟨unl [], false⟩ = (true, ⟨[], true⟩) := by simp [streamEmpty, unl]
      simp only [Bool.false_eq_true, if_false, e']
      rw [if_neg (by simp), Option.bind_some]
      simp only
      rw [if_neg (by simp), copyLines_unl (a :: l1) _ [] (fun x hx => hG.nl _ (h1 x hx)) (by omega)]
      simp [Sorter.mergeLines]
    | cons b l2 =>
      have e' : streamEmpty ⟨unl (b :: l2), false⟩ = (false, ⟨unl (b :: l2), false⟩) := by simp [streamEmpty, unl_cons]
      simp only [Bool.false_eq_true, if_false, e']
      rw [if_pos (by simp)]
      simp only [getline_unl (hG.nl _ (h1 a (by simp))), getline_unl (hG.nl _ (h2 b (by simp)))]
      rw [hG.prs _ (h1 a (by simp)), Option.bind_some, hG.prs _ (h2 b (by simp)), Option.bind_some, Sorter.mergeLines]
      simp only [List.length_cons] at u1 u2
      exact mergeLoop_unl hG _ _ a l1 b l2 h1 h2 (by omega) (by omega) (by omega)

theorem decimal_no_nl (k : Nat) : nl ∉ decimal k := by
  intro h
  have := decimal_digits k nl h
  revert this; decide

end SortText


namespace SortText
variable {R : Type} {cmp : R → R → Option Bool} {prs : List Byte → Option R} {lt : R → R → Bool} {p : List Byte → R} {G : List Byte → Prop}

/-- A file of good lines, announced by their number. -/
structure FileOK (G : List Byte → Prop) (counts : Bool) (f : SFile (List Byte)) : Prop where
  num : f.num = if counts then some f.lines.length else none
  good : ∀ l ∈ f.lines, G l

theorem readNum_text {f : SFile (List Byte)} {k : Nat} (h : f.num = some k) (hk : k < 2 ^ 64) :
    readNum ⟨text f, false⟩ = some (.ok (BitVec.ofNat 64 k, ⟨unl f.lines, false⟩)) := by
  unfold text
  rw [h]
  simp only
  obtain ⟨d, ds, e, -⟩ := decimal_cons k
  have hs : streamEmpty ⟨decimal k ++ [nl] ++ unl f.lines, false⟩ = (false, ⟨decimal k ++ [nl] ++ unl f.lines, false⟩) := by
    simp [streamEmpty]
  unfold readNum
  rw [hs]
  simp only [Bool.false_eq_true, if_false]
  rw [show decimal k ++ [nl] ++ unl f.lines = decimal k ++ nl :: unl f.lines by simp, getline_line (decimal_no_nl k)]
  simp only [stoull_decimal k hk]

theorem text_none {f : SFile (List Byte)} (h : f.num = none) : text f = unl f.lines := by unfold text; rw [h]; rfl

theorem merge_text (hG : Good cmp prs lt p G) (counts : Bool) {f1 f2 : SFile (List Byte)} (h1 : FileOK G counts f1) (h2 : FileOK G counts f2)
    (hb : f1.lines.length + f2.lines.length < 2 ^ 64) :
    merge cmp prs counts (text f1) (text f2) = Res.map text (Sorter.merge lt p counts f1 f2) := by
  unfold merge Sorter.merge
  cases counts with
  | true =>
    simp only [if_true]
    have n1 : f1.num = some f1.lines.length := by rw [h1.num]; rfl
    have n2 : f2.num = some f2.lines.length := by rw [h2.num]; rfl
    rw [readNum_text n1 (by omega), readNum_text n2 (by omega), Res.bind_ok, Res.bind_ok]
    simp only [n1, n2, Option.getD_some]
    have e : (BitVec.ofNat 64 f1.lines.length + BitVec.ofNat 64 f2.lines.length).toNat = f1.lines.length + f2.lines.length := by
      rw [← BitVec.ofNat_add, BitVec.toNat_ofNat, Nat.mod_eq_of_lt hb]
    by_cases hz : f1.lines.length + f2.lines.length = 0
    · rw [if_pos hz, if_pos (BitVec.eq_of_toNat_eq (by rw [e, hz]; rfl))]; rfl
    · rw [if_neg hz, if_neg (fun h => hz (by rw [← e, h]; rfl)), mergeBody_unl hG _ _ h1.good h2.good, e]
      simp [Res.lift, Res.bind, Res.map, text]
  | false =>
    simp only [Bool.false_eq_true, if_false]
    rw [text_none h1.num, text_none h2.num, mergeBody_unl hG _ _ h1.good h2.good]
    simp [Res.lift, Res.bind, Res.map, text]

theorem mergeLoop_lines (lt : R → R → Bool) (p : List Byte → R) (n : Nat) : ∀ (a : List Byte) (l1 : List (List Byte)) (b : List Byte) (l2 : List (List Byte)),
    l1.length + l2.length = n → (Sorter.mergeLoop lt p a l1 b l2).Perm (a :: l1 ++ b :: l2) := by
  induction n using Nat.strongRecOn with
  | _ n ih =>
    intro a l1 b l2 hn
    rw [Sorter.mergeLoop.eq_def]
    split
    · cases l1 with
      | nil => simp
      | cons a' l1 => exact List.Perm.cons a (ih (l1.length + l2.length) (by simp at hn; omega) a' l1 b l2 rfl)
    · cases l2 with
      | nil => exact (List.perm_append_comm (l₁ := a :: l1) (l₂ := [b])).symm
      | cons b' l2 =>
        exact (List.Perm.cons b (ih (l1.length + l2.length) (by simp at hn; omega) a l1 b' l2 rfl)).trans
          (List.perm_middle (a := b) (l₁ := a :: l1) (l₂ := b' :: l2)).symm

theorem mergeLines_lines (lt : R → R → Bool) (p : List Byte → R) (l1 l2 : List (List Byte)) : (Sorter.mergeLines lt p l1 l2).Perm (l1 ++ l2) := by
  cases l1 with
  | nil => cases l2 <;> simp [Sorter.mergeLines]
  | cons a l1 =>
    cases l2 with
    | nil => simp [Sorter.mergeLines]
    | cons b l2 => exact mergeLoop_lines lt p _ a l1 b l2 rfl

theorem merge_ok (counts : Bool) {f1 f2 f : SFile (List Byte)} (h1 : FileOK G counts f1) (h2 : FileOK G counts f2)
    (h : Sorter.merge lt p counts f1 f2 = some (.ok f)) : FileOK G counts f ∧ f.lines.length = f1.lines.length + f2.lines.length := by
  have hp := mergeLines_lines lt p f1.lines f2.lines
  have hlen := hp.length_eq
  rw [List.length_append] at hlen
  have hg : ∀ l ∈ Sorter.mergeLines lt p f1.lines f2.lines, G l := by
    intro l hl
    rcases List.mem_append.1 (hp.mem_iff.1 hl) with h | h
    · exact h1.good l h
    · exact h2.good l h
  unfold Sorter.merge at h
  cases counts with
  | true =>
    simp only [if_true] at h
    rw [h1.num, h2.num] at h
    simp only [if_true, Option.getD_some] at h
    split at h
    · cases h
    · cases h; exact ⟨⟨by simp [hlen], hg⟩, hlen⟩
  | false =>
    simp only [Bool.false_eq_true, if_false] at h
    cases h; exact ⟨⟨rfl, hg⟩, hlen⟩

/-- The entry of the byte-level model for an entry of the model on lines. -/
def entry : SEntry (List Byte) → Entry
  | .tmp f => .tmp (text f)
  | .output => .output

/-- The lines of an entry. -/
def size : SEntry (List Byte) → Nat
  | .tmp f => f.lines.length
  | .output => 0

theorem mergeBatches_text (hG : Good cmp prs lt p G) (counts : Bool) (out : List Byte) (n : Nat) : ∀ es : List (SEntry (List Byte)), es.length = n →
    (∀ f, SEntry.tmp f ∈ es → FileOK G counts f) → (es.map size).sum < 2 ^ 64 →
    mergeBatches cmp prs counts out (es.map entry) = Res.map (fun fs => out ++ fs.flatMap text) (Sorter.mergeBatches lt p counts es) := by
  induction n using Nat.strongRecOn with
  | _ n ih =>
    intro es hn hf hsz
    rcases es with _ | ⟨e1, _ | ⟨e2, rest⟩⟩
    · rw [List.map_nil, mergeBatches, Sorter.mergeBatches]; simp [Res.map, Res.bind]
    · rw [List.map_cons, List.map_nil, mergeBatches, Sorter.mergeBatches]; simp [Res.map, Res.bind]
    · cases e1 with
      | output => rw [List.map_cons, List.map_cons, entry, mergeBatches, Sorter.mergeBatches]; rfl
      | tmp f1 =>
        cases e2 with
        | output => rw [List.map_cons, List.map_cons, entry, entry, mergeBatches, Sorter.mergeBatches] <;> simp [Res.map, Res.bind]
        | tmp f2 =>
          have o1 := hf f1 (by simp)
          have o2 := hf f2 (by simp)
          simp only [List.map_cons, List.sum_cons, size] at hsz
          rw [List.map_cons, List.map_cons, entry, entry, mergeBatches, Sorter.mergeBatches, merge_text hG counts o1 o2 (by omega)]
          cases hm : Sorter.merge lt p counts f1 f2 with
          | none => rfl
          | some r =>
            cases r with
            | error u => rfl
            | ok f =>
              obtain ⟨o, ol⟩ := merge_ok counts o1 o2 hm
              simp only [Res.map, Res.bind_ok]
              by_cases hr : rest = []
              · subst hr; simp [Res.bind]
              · rw [if_neg (by simpa using hr), if_neg hr]
                have := ih (rest ++ [SEntry.tmp f]).length (by simp at hn ⊢; omega) (rest ++ [.tmp f]) rfl (by
                  intro g hg
                  rcases List.mem_append.1 hg with hg | hg
                  · exact hf g (by simp [hg])
                  · simp at hg; subst hg; exact o) (by simp [size]; omega)
                rw [List.map_append] at this
                exact this

theorem flush_text (fmt : R → List Byte) (counts : Bool) (b : List R) : flush fmt counts b = text (Sorter.flush fmt counts b) := by
  unfold flush Sorter.flush text unl
  cases counts <;> simp [List.flatMap_map]

theorem sortBatches_text {S : StdSortFn R} {sort : List R → List R} (fmt : R → List Byte) (counts : Bool) (n : Nat) : ∀ (bs : List (List R))
    (files : List Entry) (out : List Byte), (∀ b ∈ bs, b ≠ [] → S cmp b = some (sort b)) →
    sortBatches S cmp fmt counts n bs files out =
      some (files ++ (Sorter.sortBatches sort fmt counts n bs).1.map entry, out ++ (Sorter.sortBatches sort fmt counts n bs).2.flatMap text)
  | [], files, out, _ => by simp [sortBatches, Sorter.sortBatches]
  | b :: bs, files, out, h => by
    have ih := fun files out => sortBatches_text (S := S) (sort := sort) fmt counts n bs files out fun x hx => h x (by simp [hx])
    rw [sortBatches, Sorter.sortBatches]
    simp only
    by_cases hb : b = []
    · rw [if_pos hb, if_pos hb, ih]
    · rw [if_neg hb, if_neg hb, h b (by simp) hb, Option.bind_some]
      by_cases hn : b.length = n
      · rw [if_pos hn, if_pos hn, ih, flush_text]; simp [entry]
      · rw [if_neg hn, if_neg hn, ih, flush_text]; simp [entry]

theorem sortBatches_files {sort : List R → List R} {fmt : R → List Byte} (counts : Bool) (n : Nat) : ∀ (bs : List (List R)),
    (∀ b ∈ bs, b ≠ [] → (sort b).Perm b) → (∀ b ∈ bs, ∀ x ∈ b, G (fmt x)) →
    (∀ f, SEntry.tmp f ∈ (Sorter.sortBatches sort fmt counts n bs).1 → FileOK G counts f) ∧
      ((Sorter.sortBatches sort fmt counts n bs).1.map size).sum ≤ bs.flatten.length
  | [], _, _ => by simp [Sorter.sortBatches]
  | b :: bs, hp, hg => by
    obtain ⟨i1, i2⟩ := sortBatches_files (sort := sort) (fmt := fmt) counts n bs (fun x hx => hp x (by simp [hx])) fun x hx => hg x (by simp [hx])
    rw [Sorter.sortBatches]
    simp only [List.flatten_cons, List.length_append]
    by_cases hb : b = []
    · rw [if_pos hb]; exact ⟨i1, Nat.le_trans i2 (Nat.le_add_left _ _)⟩
    · rw [if_neg hb]
      have hperm := hp b (by simp) hb
      by_cases hn : b.length = n
      · rw [if_pos hn]
        refine ⟨fun f hf => i1 f (by simpa using hf), ?_⟩
        simp only [List.map_cons, List.sum_cons, size]; omega
      · rw [if_neg hn]
        constructor
        · intro f hf
          simp only [List.mem_cons, SEntry.tmp.injEq] at hf
          rcases hf with rfl | hf
          · refine ⟨?_, ?_⟩
            · unfold Sorter.flush; simp
            · intro l hl
              obtain ⟨x, hx, rfl⟩ := List.mem_map.1 hl
              exact hg b (by simp) x (hperm.mem_iff.1 hx)
          · exact i1 f hf
        · have := hperm.length_eq
          simp only [List.map_cons, List.sum_cons, size, Sorter.flush, List.length_map]; omega

/-- The byte-level sorter writes the text of what the sorter on lines writes, after what the output file contained. -/
theorem run_eq (hG : Good cmp prs lt p G) {S : StdSortFn R} {sort : List R → List R} {fmt : R → List Byte} (counts : Bool) (n : Nat) (old : List Byte)
    (batches : List (List R)) (hS : ∀ b ∈ batches, b ≠ [] → S cmp b = some (sort b) ∧ (sort b).Perm b) (hg : ∀ b ∈ batches, ∀ x ∈ b, G (fmt x))
    (hlen : batches.flatten.length < 2 ^ 64) :
    run S cmp fmt prs counts n old batches = Res.map (fun fs => old ++ fs.flatMap text) (Sorter.run sort lt fmt p counts n batches) := by
  obtain ⟨f1, f2⟩ := sortBatches_files (G := G) (sort := sort) (fmt := fmt) counts n batches (fun b hb hne => (hS b hb hne).2) hg
  unfold run Sorter.run
  rw [sortBatches_text (sort := sort) fmt counts n batches [] old fun b hb hne => (hS b hb hne).1]
  simp only [Res.lift, Option.map_some, Res.bind_ok, List.nil_append]
  rw [mergeBatches_text hG counts _ _ _ rfl f1 (by omega)]
  unfold Res.map
  rw [Res.bind_assoc]
  refine Res.bind_congr _ fun o => ?_
  rw [Res.bind_ok]
  simp only [List.flatMap_append, List.append_assoc]

end SortText

end Tongrams
