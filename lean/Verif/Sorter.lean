import Verif.Pools
import Mathlib.Data.List.Perm.Basic

/-!
# C34: external sorting (sorters/sorter.hpp, src/sort_grams.cpp)

A record is an n-gram (its bytes) with a value.  `lt` is the comparator, `fmt` / `prs` are `LineHandler::format_line` / `parse_line`.
`std::sort` is a parameter.  Names of temporary files (next_tmp_filename, sorter.hpp:44-47) are taken to be distinct; reading back a file gives
the lines written to it.
-/

set_option linter.unusedSectionVars false

namespace Tongrams

/-- A file written by the sorter: for counts the first line is the number of n-grams (sorter.hpp:76-80, 105-121). -/
structure SFile (L : Type) where
  num : Option Nat
  lines : List L

/-- An entry of `m_files` (sorter.hpp:41): a temporary file, or the output file. -/
inductive SEntry (L : Type) where
  | tmp (f : SFile L)
  | output

namespace Sorter
variable {R L : Type}

/-- The loop of `merge` (sorter.hpp:130-152) and the copy of what is left (155-165): `a`, `b` are the current lines, `l1`, `l2` the lines not read. -/
def mergeLoop (lt : R → R → Bool) (prs : L → R) (a : L) (l1 : List L) (b : L) (l2 : List L) : List L :=
  if lt (prs a) (prs b) then
    a :: (match l1 with
      | [] => b :: l2
      | a' :: l1' => mergeLoop lt prs a' l1' b l2)
  else
    b :: (match l2 with
      | [] => a :: l1
      | b' :: l2' => mergeLoop lt prs a l1 b' l2')
termination_by l1.length + l2.length

/-- The body of `merge` (sorter.hpp:123-165). -/
def mergeLines (lt : R → R → Bool) (prs : L → R) : List L → List L → List L
  | a :: l1, b :: l2 => mergeLoop lt prs a l1 b l2
  | [], l2 => l2
  | l1, [] => l1

/-- `merge` (sorter.hpp:92-168); `counts` tells whether `LineHandler::value_t` is `count`. -/
def merge (lt : R → R → Bool) (prs : L → R) (counts : Bool) (f1 f2 : SFile L) : Res (SFile L) :=
  if counts then
    if f1.num.getD 0 + f2.num.getD 0 = 0 then some (.error ())
    else some (.ok ⟨some (f1.num.getD 0 + f2.num.getD 0), mergeLines lt prs f1.lines f2.lines⟩)
  else some (.ok ⟨none, mergeLines lt prs f1.lines f2.lines⟩)

/-- `merge_batches` (sorter.hpp:49-67): what is written to the output file.  Merging the output file itself, which no driver causes, is left undefined. -/
def mergeBatches (lt : R → R → Bool) (prs : L → R) (counts : Bool) : List (SEntry L) → Res (List (SFile L))
  | [] => some (.ok [])
  | [_] => some (.ok [])
  | .tmp f1 :: .tmp f2 :: rest =>
    Res.bind (merge lt prs counts f1 f2) fun f =>
    if rest = [] then some (.ok [f]) else mergeBatches lt prs counts (rest ++ [.tmp f])
  | .output :: _ :: _ => none
  | _ :: .output :: _ => none
termination_by l => l.length

/-- `flush` (sorter.hpp:69-90). -/
def flush (fmt : R → L) (counts : Bool) (b : List R) : SFile L := ⟨if counts then some b.length else none, b.map fmt⟩

/-- The calls `sort(begin, end)` on the batches (sorter.hpp:23-35): the entries of `m_files` and what is written to the output file. -/
def sortBatches (sort : List R → List R) (fmt : R → L) (counts : Bool) (n : Nat) : List (List R) → List (SEntry L) × List (SFile L)
  | [] => ([], [])
  | b :: bs =>
    let (es, out) := sortBatches sort fmt counts n bs
    if b = [] then (es, out)
    else if b.length = n then (.output :: es, flush fmt counts (sort b) :: out)
    else (.tmp (flush fmt counts (sort b)) :: es, out)

/-- A sorter from its construction to its destruction (sorter.hpp:12-21): what is appended to the output file. -/
def run (sort : List R → List R) (lt : R → R → Bool) (fmt : R → L) (prs : L → R) (counts : Bool) (n : Nat) (batches : List (List R)) :
    Res (List (SFile L)) :=
  let (es, out) := sortBatches sort fmt counts n batches
  Res.bind (mergeBatches lt prs counts es) fun o => some (.ok (out ++ o))

end Sorter

namespace SortGrams
variable {V : Type}

/-- The inner loop of `sort_grams` (sort_grams.cpp:79-87): the pool, the number of records appended, the lines not consumed. -/
def fillPool (p : Pool V) : List (List Byte × V) → Option (Pool V × Nat × List (List Byte × V))
  | [] => some (p, 0, [])
  | r :: rs => (p.append r.1 r.2).bind fun x =>
    if x.1 then (fillPool x.2 rs).map fun y => (y.1, y.2.1 + 1, y.2.2) else some (x.2, 0, r :: rs)

/-- The loop of `sort_grams` (sort_grams.cpp:75-93): the batches given to the sorter; `n - 1` is computed modulo `2^64`.  Reading a line past the end of
the input is undefined, and so is running for more than `fuel` rounds. -/
def driver (n : Nat) : Nat → Nat → Pool V → List (List Byte × V) → Option (List (List (List Byte × V)))
  | 0, _, _, _ => none
  | fuel + 1, i, p, rest =>
    if i < (n + 2 ^ 64 - 1) % 2 ^ 64 then
      match rest with
      | [] => none
      | r :: rs => (p.append r.1 r.2).bind fun x => (fillPool x.2 rs).bind fun y =>
        (driver n fuel (i + y.2.1 + 1) y.1.clear y.2.2).map (y.1.records :: ·)
    else some []

/-- `sort_grams` (sort_grams.cpp:62-94), with a pool of `mem` bytes. -/
def sortGrams (sort : List (List Byte × V) → List (List Byte × V)) (lt : (List Byte × V) → (List Byte × V) → Bool) {L : Type}
    (fmt : (List Byte × V) → L) (prs : L → (List Byte × V)) (mem extra : Nat) (input : List (List Byte × V)) : Res (List (SFile L)) :=
  Res.bind (Res.lift (driver input.length (input.length + 1) 0 (Pool.new mem extra) input)) fun bs =>
  Sorter.run sort lt fmt prs true input.length bs

end SortGrams

/-- Specification: a strict weak order on the records of `P`. -/
structure Spec.StrictWeak {R : Type} (lt : R → R → Bool) (P : R → Prop) : Prop where
  irrefl : ∀ a, P a → lt a a = false
  trans : ∀ a b c, P a → P b → P c → lt a b = true → lt b c = true → lt a c = true
  negtrans : ∀ a b c, P a → P b → P c → lt a b = false → lt b c = false → lt a c = false

/-- Specification: `std::sort` with this comparator. -/
def Spec.StdSort {R : Type} (sort : List R → List R) (lt : R → R → Bool) (P : R → Prop) : Prop :=
  ∀ l, (∀ a ∈ l, P a) → (sort l).Perm l ∧ (sort l).Pairwise fun a b => lt b a = false

/-- Specification: a file of counts that lists the records `rs` in comparator order. -/
def Spec.SortedFile {R L : Type} (lt : R → R → Bool) (fmt : R → L) (counts : Bool) (rs : List R) (f : SFile L) : Prop :=
  f.num = (if counts then some rs.length else none) ∧
  ∃ s : List R, f.lines = s.map fmt ∧ s.Perm rs ∧ s.Pairwise fun a b => lt b a = false

/-- Specification: the records cut greedily into batches of at most `cap` bytes. -/
def Spec.greedy {V : Type} (cap : Nat) : List (List Byte × V) → List (List Byte × V) → List (List (List Byte × V))
  | cur, [] => if cur = [] then [] else [cur]
  | cur, r :: rs => if cur = [] ∨ (cur.map (·.1.length)).sum + r.1.length ≤ cap then Spec.greedy cap (cur ++ [r]) rs else cur :: Spec.greedy cap [r] rs

/-! ## Proofs -/

namespace Sorter
variable {R L : Type} {lt : R → R → Bool} {fmt : R → L} {prs : L → R} {P : R → Prop}

/-- Comparing lines is comparing the records they come from. -/
def Compat (lt : R → R → Bool) (fmt : R → L) (prs : L → R) (P : R → Prop) : Prop :=
  ∀ a b, P a → P b → lt (prs (fmt a)) (prs (fmt b)) = lt a b

theorem mergeLoop_spec (hs : Spec.StrictWeak lt P) (hc : Compat lt fmt prs P) (n : Nat) :
    ∀ (a : R) (l1 : List R) (b : R) (l2 : List R), l1.length + l2.length = n → (∀ x ∈ a :: l1, P x) → (∀ x ∈ b :: l2, P x) →
      ((a :: l1).Pairwise fun x y => lt y x = false) → ((b :: l2).Pairwise fun x y => lt y x = false) →
      ∃ s : List R, mergeLoop lt prs (fmt a) (l1.map fmt) (fmt b) (l2.map fmt) = s.map fmt ∧ s.Perm (a :: l1 ++ b :: l2) ∧
        s.Pairwise fun x y => lt y x = false := by
  induction n using Nat.strongRecOn with
  | _ n ih =>
    intro a l1 b l2 hn h1 h2 p1 p2
    have ha := h1 a List.mem_cons_self
    have hb := h2 b List.mem_cons_self
    rw [mergeLoop.eq_def, hc a b ha hb]
    cases hlt : lt a b with
    | true =>
      rw [if_pos rfl]
      -- nothing is before `a`
      have hmin : ∀ x ∈ l1 ++ b :: l2, lt x a = false := by
        intro x hx
        rcases List.mem_append.1 hx with hx | hx
        · exact List.rel_of_pairwise_cons p1 hx
        · have hxP := h2 x hx
          have hxb : lt x b = false := by
            rcases List.mem_cons.1 hx with rfl | hx
            · exact hs.irrefl _ hb
            · exact List.rel_of_pairwise_cons p2 hx
          by_contra hne
          have := hs.trans x a b hxP ha hb (by simpa using hne) hlt
          rw [hxb] at this; simp at this
      cases l1 with
      | nil =>
        refine ⟨a :: b :: l2, by simp, by simp, ?_⟩
        exact List.pairwise_cons.2 ⟨fun x hx => hmin x (by simpa using hx), p2⟩
      | cons a' l1 =>
        obtain ⟨s, e1, e2, e3⟩ := ih (l1.length + l2.length) (by simp at hn; omega) a' l1 b l2 rfl (fun x hx => h1 x (List.mem_cons_of_mem _ hx)) h2
          (List.Pairwise.of_cons p1) p2
        refine ⟨a :: s, ?_, ?_, ?_⟩
        · simp only [List.map_cons, e1]
        · exact List.Perm.cons a e2
        · exact List.pairwise_cons.2 ⟨fun x hx => hmin x (e2.mem_iff.1 hx), e3⟩
    | false =>
      rw [if_neg (by simp)]
      have hmin : ∀ x ∈ (a :: l1) ++ l2, lt x b = false := by
        intro x hx
        rcases List.mem_append.1 hx with hx | hx
        · rcases List.mem_cons.1 hx with rfl | hx'
          · exact hlt
          · exact hs.negtrans x a b (h1 x hx) ha hb (List.rel_of_pairwise_cons p1 hx') hlt
        · exact List.rel_of_pairwise_cons p2 hx
      cases l2 with
      | nil =>
        refine ⟨b :: a :: l1, by simp, ?_, ?_⟩
        · exact (List.perm_append_comm (l₁ := a :: l1) (l₂ := [b])).symm
        · exact List.pairwise_cons.2 ⟨fun x hx => hmin x (by simpa using hx), p1⟩
      | cons b' l2 =>
        obtain ⟨s, e1, e2, e3⟩ := ih (l1.length + l2.length) (by simp at hn; omega) a l1 b' l2 rfl h1 (fun x hx => h2 x (List.mem_cons_of_mem _ hx)) p1
          (List.Pairwise.of_cons p2)
        refine ⟨b :: s, ?_, ?_, ?_⟩
        · simp only [List.map_cons, e1]
        · refine (List.Perm.cons b e2).trans ?_
          exact (List.perm_middle (a := b) (l₁ := a :: l1) (l₂ := b' :: l2)).symm
        · exact List.pairwise_cons.2 ⟨fun x hx => hmin x (e2.mem_iff.1 hx), e3⟩

theorem mergeLines_spec (hs : Spec.StrictWeak lt P) (hc : Compat lt fmt prs P) (l1 l2 : List R) (h1 : ∀ x ∈ l1, P x) (h2 : ∀ x ∈ l2, P x)
    (p1 : l1.Pairwise fun x y => lt y x = false) (p2 : l2.Pairwise fun x y => lt y x = false) :
    ∃ s : List R, mergeLines lt prs (l1.map fmt) (l2.map fmt) = s.map fmt ∧ s.Perm (l1 ++ l2) ∧ s.Pairwise fun x y => lt y x = false := by
  cases l1 with
  | nil => exact ⟨l2, by cases l2 <;> rfl, by simp, p2⟩
  | cons a l1 =>
    cases l2 with
    | nil => exact ⟨a :: l1, rfl, by simp, p1⟩
    | cons b l2 => exact mergeLoop_spec hs hc _ a l1 b l2 rfl h1 h2 p1 p2

theorem merge_spec (hs : Spec.StrictWeak lt P) (hc : Compat lt fmt prs P) (counts : Bool) {f1 f2 : SFile L} {r1 r2 : List R}
    (h1 : ∀ x ∈ r1, P x) (h2 : ∀ x ∈ r2, P x) (hne : r1 ≠ []) (s1 : Spec.SortedFile lt fmt counts r1 f1) (s2 : Spec.SortedFile lt fmt counts r2 f2) :
    ∃ f, merge lt prs counts f1 f2 = some (.ok f) ∧ Spec.SortedFile lt fmt counts (r1 ++ r2) f := by
  obtain ⟨n1, t1, e1, q1, o1⟩ := s1
  obtain ⟨n2, t2, e2, q2, o2⟩ := s2
  obtain ⟨s, e3, q3, o3⟩ := mergeLines_spec hs hc t1 t2 (fun x hx => h1 x (q1.mem_iff.1 hx)) (fun x hx => h2 x (q2.mem_iff.1 hx)) o1 o2
  have hpos := List.length_pos_iff.2 hne
  cases counts with
  | true =>
    refine ⟨⟨some (r1.length + r2.length), s.map fmt⟩, ?_, ?_, s, rfl, q3.trans (q1.append q2), o3⟩
    · unfold merge
      rw [n1, n2, e1, e2, e3]
      show (if r1.length + r2.length = 0 then _ else _) = _
      rw [if_neg (by omega)]
      rfl
    · show some _ = some (r1 ++ r2).length
      rw [List.length_append]
  | false =>
    refine ⟨⟨none, s.map fmt⟩, ?_, rfl, s, rfl, q3.trans (q1.append q2), o3⟩
    unfold merge
    rw [e1, e2, e3]; rfl

theorem mergeBatches_spec (hs : Spec.StrictWeak lt P) (hc : Compat lt fmt prs P) (counts : Bool) (k : Nat) :
    ∀ (fs : List (SFile L)) (rs : List (List R)), fs.length = k + 2 → List.Forall₂ (fun f r => Spec.SortedFile lt fmt counts r f) fs rs →
      (∀ r ∈ rs, r ≠ [] ∧ ∀ x ∈ r, P x) →
      ∃ f r, mergeBatches lt prs counts (fs.map .tmp) = some (.ok [f]) ∧ Spec.SortedFile lt fmt counts r f ∧ r.Perm rs.flatten := by
  induction k with
  | zero =>
    intro fs rs hl hf hr
    obtain ⟨f1, f2, rfl⟩ : ∃ f1 f2, fs = [f1, f2] := by
      rcases fs with _ | ⟨f1, _ | ⟨f2, _ | _⟩⟩ <;> simp at hl
      exact ⟨f1, f2, rfl⟩
    cases hf with
    | cons h1 hf => cases hf with
      | cons h2 hf =>
        cases hf
        rename_i r1 r2
        obtain ⟨f, e1, e2⟩ := merge_spec hs hc counts (hr r1 (by simp)).2 (hr r2 (by simp)).2 (hr r1 (by simp)).1 h1 h2
        refine ⟨f, r1 ++ r2, ?_, e2, by simp⟩
        rw [List.map_cons, List.map_cons, List.map_nil, mergeBatches, e1, Res.bind_ok, if_pos rfl]
  | succ k ih =>
    intro fs rs hl hf hr
    obtain ⟨f1, f2, f3, fs, rfl⟩ : ∃ f1 f2 f3 l, fs = f1 :: f2 :: f3 :: l := by
      rcases fs with _ | ⟨f1, _ | ⟨f2, _ | ⟨f3, l⟩⟩⟩ <;> simp at hl
      exact ⟨f1, f2, f3, l, rfl⟩
    cases hf with
    | cons h1 hf => cases hf with
      | cons h2 hf =>
        rename_i r1 r2 rs
        obtain ⟨f, e1, e2⟩ := merge_spec hs hc counts (hr r1 (by simp)).2 (hr r2 (by simp)).2 (hr r1 (by simp)).1 h1 h2
        obtain ⟨g, r, g1, g2, g3⟩ := ih ((f3 :: fs) ++ [f]) (rs ++ [r1 ++ r2]) (by simp at hl ⊢; omega)
          (List.rel_append hf (List.Forall₂.cons e2 List.Forall₂.nil)) (by
            intro x hx
            rcases List.mem_append.1 hx with hx | hx
            · exact hr x (by simp [hx])
            · simp only [List.mem_singleton] at hx
              subst hx
              refine ⟨by simp [(hr r1 (by simp)).1], ?_⟩
              intro y hy
              rcases List.mem_append.1 hy with hy | hy
              · exact (hr r1 (by simp)).2 y hy
              · exact (hr r2 (by simp)).2 y hy)
        refine ⟨g, r, ?_, g2, g3.trans ?_⟩
        · rw [List.map_cons, List.map_cons, mergeBatches, e1, Res.bind_ok, if_neg (by simp)]
          rw [List.map_append] at g1
          exact g1
        · rw [List.flatten_append, List.flatten_cons, List.flatten_cons, List.flatten_cons, List.flatten_nil, List.append_nil]
          exact List.perm_append_comm.trans (by rw [List.append_assoc])

theorem flush_sorted {sort : List R → List R} (hsort : Spec.StdSort sort lt P) (counts : Bool) {b : List R} (hb : ∀ x ∈ b, P x) :
    Spec.SortedFile lt fmt counts b (flush fmt counts (sort b)) := by
  obtain ⟨h1, h2⟩ := hsort b hb
  refine ⟨?_, _, rfl, h1, h2⟩
  show (if counts then some (sort b).length else none) = _
  rw [h1.length_eq]

theorem sortBatches_small {sort : List R → List R} (counts : Bool) (n : Nat) (bs : List (List R)) (h : ∀ b ∈ bs, b ≠ [] ∧ b.length ≠ n) :
    sortBatches sort fmt counts n bs = ((bs.map fun b => flush fmt counts (sort b)).map .tmp, []) := by
  induction bs with
  | nil => rfl
  | cons b bs ih =>
    obtain ⟨h1, h2⟩ := h b List.mem_cons_self
    rw [sortBatches, ih (fun x hx => h x (List.mem_cons_of_mem _ hx))]
    simp only
    rw [if_neg h1, if_neg h2]; rfl

/-- The sorter on batches that are all smaller than the whole. -/
theorem run_many {sort : List R → List R} (hs : Spec.StrictWeak lt P) (hsort : Spec.StdSort sort lt P) (hc : Compat lt fmt prs P) (counts : Bool) (n : Nat)
    (bs : List (List R)) (h2 : 2 ≤ bs.length) (h : ∀ b ∈ bs, b ≠ [] ∧ b.length ≠ n ∧ ∀ x ∈ b, P x) :
    ∃ f r, run sort lt fmt prs counts n bs = some (.ok [f]) ∧ Spec.SortedFile lt fmt counts r f ∧ r.Perm bs.flatten := by
  obtain ⟨k, hk⟩ : ∃ k, bs.length = k + 2 := ⟨bs.length - 2, by omega⟩
  obtain ⟨f, r, e1, e2, e3⟩ := mergeBatches_spec hs hc counts k (bs.map fun b => flush fmt counts (sort b)) bs (by simpa using hk)
    (by
      have : ∀ bs : List (List R), (∀ b ∈ bs, ∀ x ∈ b, P x) →
          List.Forall₂ (fun f r => Spec.SortedFile lt fmt counts r f) (bs.map fun b => flush fmt counts (sort b)) bs := by
        intro bs
        induction bs with
        | nil => intro _; exact List.Forall₂.nil
        | cons b bs ih =>
          intro hb
          exact List.Forall₂.cons (flush_sorted hsort counts (hb b List.mem_cons_self)) (ih fun x hx => hb x (List.mem_cons_of_mem _ hx))
      exact this bs fun b hb => (h b hb).2.2)
    (fun b hb => ⟨(h b hb).1, (h b hb).2.2⟩)
  refine ⟨f, r, ?_, e2, e3⟩
  unfold run
  rw [sortBatches_small counts n bs fun b hb => ⟨(h b hb).1, (h b hb).2.1⟩]
  simp only
  rw [e1]; rfl

/-- The sorter on one batch that holds everything. -/
theorem run_one {sort : List R → List R} (hsort : Spec.StdSort sort lt P) (counts : Bool) (b : List R) (hne : b ≠ []) (h : ∀ x ∈ b, P x) :
    ∃ f, run sort lt fmt prs counts b.length [b] = some (.ok [f]) ∧ Spec.SortedFile lt fmt counts b f := by
  refine ⟨_, ?_, flush_sorted hsort counts h⟩
  unfold run sortBatches
  simp only [sortBatches, if_neg hne, if_pos]
  rw [mergeBatches]; rfl

end Sorter

theorem SortedFile.perm {R L : Type} {lt : R → R → Bool} {fmt : R → L} {counts : Bool} {r r' : List R} {f : SFile L} (h : Spec.SortedFile lt fmt counts r f)
    (hp : r.Perm r') : Spec.SortedFile lt fmt counts r' f := by
  obtain ⟨h1, s, h2, h3, h4⟩ := h
  exact ⟨by rw [h1, hp.length_eq], s, h2, h3.trans hp, h4⟩

/-- **C34** (merging).  Given batches that together hold all the `n` records, the sorter writes to the output file exactly one file, with all the records
in comparator order (after their number, for counts).  The comparator only has to be a strict weak order on the records. -/
theorem C34_sorter {R L : Type} {lt : R → R → Bool} {fmt : R → L} {prs : L → R} {P : R → Prop} {sort : List R → List R} (hs : Spec.StrictWeak lt P)
    (hsort : Spec.StdSort sort lt P) (hc : ∀ a b, P a → P b → lt (prs (fmt a)) (prs (fmt b)) = lt a b) (counts : Bool)
    (batches : List (List R)) (hne : batches ≠ []) (h : ∀ b ∈ batches, b ≠ [] ∧ ∀ x ∈ b, P x) :
    ∃ f, Sorter.run sort lt fmt prs counts batches.flatten.length batches = some (.ok [f]) ∧ Spec.SortedFile lt fmt counts batches.flatten f := by
  rcases batches with _ | ⟨b, _ | ⟨c, bs⟩⟩
  · exact absurd rfl hne
  · have hb := h b (by simp)
    obtain ⟨f, e1, e2⟩ := Sorter.run_one (lt := lt) (fmt := fmt) (prs := prs) hsort counts b hb.1 hb.2
    simp only [List.flatten_cons, List.flatten_nil, List.append_nil]
    exact ⟨f, e1, e2⟩
  · have hlen : ∀ x ∈ b :: c :: bs, x.length < (b :: c :: bs).flatten.length := by
      intro x hx
      have hb := List.length_pos_iff.2 (h b (by simp)).1
      have hcp := List.length_pos_iff.2 (h c (by simp)).1
      simp only [List.flatten_cons, List.length_append]
      rcases List.mem_cons.1 hx with rfl | hx
      · omega
      · rcases List.mem_cons.1 hx with rfl | hx
        · omega
        · have : x.length ≤ bs.flatten.length := by
            obtain ⟨s, t, rfl⟩ := List.append_of_mem hx
            simp; omega
          omega
    obtain ⟨f, r, e1, e2, e3⟩ := Sorter.run_many hs hsort hc counts (b :: c :: bs).flatten.length (b :: c :: bs) (by simp) fun x hx =>
      ⟨(h x hx).1, (Nat.ne_of_lt (hlen x hx)), (h x hx).2⟩
    exact ⟨f, e1, SortedFile.perm e2 e3⟩

/-! ### The driver -/

namespace SortGrams
variable {V : Type}

theorem greedy_flatten (cap : Nat) (cur rs : List (List Byte × V)) : (Spec.greedy cap cur rs).flatten = cur ++ rs := by
  induction rs generalizing cur with
  | nil => unfold Spec.greedy; split <;> simp_all
  | cons r rs ih =>
    unfold Spec.greedy
    split
    · rw [ih]; simp
    · rw [List.flatten_cons, ih]; simp

theorem greedy_nonempty (cap : Nat) (cur rs : List (List Byte × V)) : ∀ b ∈ Spec.greedy cap cur rs, b ≠ [] := by
  induction rs generalizing cur with
  | nil =>
    intro b hb
    unfold Spec.greedy at hb
    split at hb
    · simp at hb
    · simp at hb; rename_i h; rw [hb]; exact h
  | cons r rs ih =>
    intro b hb
    unfold Spec.greedy at hb
    split at hb
    · exact ih _ b hb
    · rename_i h
      rcases List.mem_cons.1 hb with rfl | hb
      · intro e; exact h (.inl e)
      · exact ih _ b hb

theorem fillPool_spec {p : Pool V} {held : List (List Byte × V)} (h : p.Holds held) (hne : held ≠ []) (rs : List (List Byte × V)) (hr : ∀ r ∈ rs, r.1 ≠ []) :
    ∃ p' k rest held', fillPool p rs = some (p', k, rest) ∧ p'.Holds held' ∧ p'.maxBytes = p.maxBytes ∧ k + rest.length = rs.length ∧
      held'.length = held.length + k ∧ rest <:+ rs ∧
      Spec.greedy p.maxBytes held rs = held' :: Spec.greedy p.maxBytes [] rest := by
  induction rs generalizing p held with
  | nil =>
    refine ⟨p, 0, [], held, rfl, h, rfl, rfl, rfl, List.suffix_refl _, ?_⟩
    simp [Spec.greedy, hne]
  | cons r rs ih =>
    obtain ⟨-, a2, a3⟩ := Pool.append_ok h r.1 r.2
    have hg := hr r List.mem_cons_self
    by_cases hle : p.bytes.length + r.1.length ≤ p.maxBytes
    · obtain ⟨q, b1, b2, b3⟩ := a2 hg hle
      obtain ⟨p', k, rest, held', c1, c2, c3, c4, c5, c6, c7⟩ := ih b3 (by simp) (fun x hx => hr x (List.mem_cons_of_mem _ hx))
      refine ⟨p', k + 1, rest, held', ?_, c2, by rw [c3, b2], by simp; omega, by rw [c5, List.length_append, List.length_singleton]; omega,
        c6.trans (List.suffix_cons _ _), ?_⟩
      · rw [fillPool, b1, Option.bind_some, if_pos rfl, c1]; rfl
      · rw [b2] at c7
        rw [Spec.greedy, if_pos (.inr (by rw [← h.len]; exact hle))]
        exact c7
    · refine ⟨p, 0, r :: rs, held, ?_, h, rfl, by simp, rfl, List.suffix_refl _, ?_⟩
      · rw [fillPool, a3 hg (by omega), Option.bind_some, if_neg (by simp)]
      · rw [Spec.greedy, if_neg (by rw [← h.len]; rintro (h' | h'); exact hne h'; exact hle h'), Spec.greedy, if_pos (.inl rfl)]
        rfl

/-- What the loop of the driver gives to the sorter: all the batches, but the last one if it has a single record. -/
def given (B : List (List (List Byte × V))) : List (List (List Byte × V)) :=
  if (B.getLast?.map List.length) = some 1 then B.dropLast else B

theorem given_cons (b : List (List Byte × V)) {B : List (List (List Byte × V))} (h : B ≠ []) : given (b :: B) = b :: given B := by
  unfold given
  rw [show (b :: B).getLast? = B.getLast? by cases B with | nil => exact absurd rfl h | cons c B => rfl]
  split
  · cases B with
    | nil => exact absurd rfl h
    | cons c B => rfl
  · rfl

theorem greedy_ne_nil (cap : Nat) {rs : List (List Byte × V)} (h : rs ≠ []) : Spec.greedy cap [] rs ≠ [] := by
  intro e
  have := greedy_flatten cap [] rs
  rw [e] at this
  exact h (by simpa using this.symm)

theorem driver_spec (n : Nat) (hn : 1 ≤ n) (hn2 : n < 2 ^ 64) (fuel : Nat) :
    ∀ (i : Nat) (p : Pool V) (rest : List (List Byte × V)), p.Holds [] → (∀ r ∈ rest, r.1 ≠ [] ∧ r.1.length ≤ p.maxBytes) →
      i + rest.length = n → rest.length < fuel → driver n fuel i p rest = some (given (Spec.greedy p.maxBytes [] rest)) := by
  have hw : (n + 2 ^ 64 - 1) % 2 ^ 64 = n - 1 := by
    rw [show n + 2 ^ 64 - 1 = (n - 1) + 2 ^ 64 by omega, Nat.add_mod_right, Nat.mod_eq_of_lt (by omega)]
  induction fuel with
  | zero => intro i p rest _ _ _ h; omega
  | succ fuel ih =>
    intro i p rest hp hr hi hf
    rw [driver.eq_def, hw]
    simp only
    by_cases hlt : i < n - 1
    · rw [if_pos hlt]
      obtain ⟨r, r2, rs, rfl⟩ : ∃ r r2 rs, rest = r :: r2 :: rs := by
        rcases rest with _ | ⟨r, _ | ⟨r2, rs⟩⟩
        · simp at hi; omega
        · simp at hi; omega
        · exact ⟨r, r2, rs, rfl⟩
      obtain ⟨-, a2, -⟩ := Pool.append_ok hp r.1 r.2
      have hb0 : p.bytes = [] := hp.bytes
      have hr0 := hr r List.mem_cons_self
      obtain ⟨q, b1, b2, b3⟩ := a2 hr0.1 (by rw [hb0, List.length_nil]; omega)
      obtain ⟨p', k, rest', held', c1, c2, c3, c4, c5, c6, c7⟩ := fillPool_spec b3 (by simp) (r2 :: rs) (fun x hx => (hr x (List.mem_cons_of_mem _ hx)).1)
      simp only [b1, Option.bind_some, c1]
      have hg : Spec.greedy p.maxBytes [] (r :: r2 :: rs) = held' :: Spec.greedy p.maxBytes [] rest' := by
        rw [b2] at c7
        rw [Spec.greedy, if_pos (.inl rfl)]
        exact c7
      have hmax : p'.clear.maxBytes = p.maxBytes := by show p'.maxBytes = _; rw [c3, b2]
      rw [ih (i + k + 1) p'.clear rest' (Pool.clear_holds c2) (fun x hx => by rw [hmax]; exact hr x (List.mem_cons_of_mem _ (c6.subset hx)))
        (by simp at c4 hi; omega) (by simp at c4 hf; omega), hmax, Option.map_some, hg, c2.records]
      refine congrArg some ?_
      by_cases hr' : rest' = []
      · subst hr'
        have : held'.length ≠ 1 := by simp at c4 c5; omega
        simp [Spec.greedy, given, this]
      · rw [given_cons _ (greedy_ne_nil _ hr')]
    · rw [if_neg hlt]
      rcases rest with _ | ⟨r, _ | ⟨r2, rs⟩⟩
      · simp [Spec.greedy, given]
      · simp [Spec.greedy, given]
      · simp at hi; omega

end SortGrams

section
variable {V L : Type} {lt : (List Byte × V) → (List Byte × V) → Bool} {fmt : (List Byte × V) → L} {prs : L → (List Byte × V)}
  {P : (List Byte × V) → Prop} {sort : List (List Byte × V) → List (List Byte × V)}

/-- **C34** (sort_grams).  If the last batch of records that fits in memory has more than one record, `sort_grams` writes all the records, in comparator
order, preceded by their number. -/
theorem C34_sort_grams (hs : Spec.StrictWeak lt P) (hsort : Spec.StdSort sort lt P) (hc : ∀ a b, P a → P b → lt (prs (fmt a)) (prs (fmt b)) = lt a b)
    (mem extra : Nat) (input : List (List Byte × V)) (hn : input.length < 2 ^ 64) (hP : ∀ r ∈ input, P r ∧ r.1 ≠ [] ∧ r.1.length ≤ mem)
    (hlast : ∃ b, (Spec.greedy mem [] input).getLast? = some b ∧ 2 ≤ b.length) :
    ∃ f, SortGrams.sortGrams sort lt fmt prs mem extra input = some (.ok [f]) ∧ Spec.SortedFile lt fmt true input f := by
  obtain ⟨b, hb, hb2⟩ := hlast
  have hne : input ≠ [] := by rintro rfl; simp [Spec.greedy] at hb
  have hd := SortGrams.driver_spec input.length (List.length_pos_iff.2 hne) hn (input.length + 1) 0 (Pool.new mem extra) input (Pool.new_holds _ _)
    (fun r hr => (hP r hr).2) (by omega) (by omega)
  have hg : SortGrams.given (Spec.greedy mem [] input) = Spec.greedy mem [] input := by
    unfold SortGrams.given; rw [hb, Option.map_some, if_neg (by simp; omega)]
  have hfl := SortGrams.greedy_flatten mem [] input
  rw [List.nil_append] at hfl
  obtain ⟨f, e1, e2⟩ := C34_sorter hs hsort hc true (Spec.greedy mem [] input) (SortGrams.greedy_ne_nil _ hne) (fun x hx =>
    ⟨SortGrams.greedy_nonempty _ _ _ x hx, fun y hy => (hP y (hfl ▸ List.mem_flatten.2 ⟨x, hx, hy⟩)).1⟩)
  rw [hfl] at e1 e2
  refine ⟨f, ?_, e2⟩
  unfold SortGrams.sortGrams
  rw [hd]
  show Sorter.run sort lt fmt prs true input.length (SortGrams.given (Spec.greedy mem [] input)) = _
  rw [hg]; exact e1

/-- C34, defect, for every input: if the last batch has a single record, `sort_grams` never writes that record; and if there are at most two batches it
writes nothing at all to the output file. -/
theorem C34_last_record_lost_defect (hs : Spec.StrictWeak lt P) (hsort : Spec.StdSort sort lt P) (hc : ∀ a b, P a → P b → lt (prs (fmt a)) (prs (fmt b)) = lt a b)
    (mem extra : Nat) (input : List (List Byte × V)) (hn : input.length < 2 ^ 64) (hP : ∀ r ∈ input, P r ∧ r.1 ≠ [] ∧ r.1.length ≤ mem)
    {x : List Byte × V} (hlast : (Spec.greedy mem [] input).getLast? = some [x]) :
    ((Spec.greedy mem [] input).length ≤ 2 → SortGrams.sortGrams sort lt fmt prs mem extra input = some (.ok [])) ∧
    (2 < (Spec.greedy mem [] input).length →
      ∃ f, SortGrams.sortGrams sort lt fmt prs mem extra input = some (.ok [f]) ∧ Spec.SortedFile lt fmt true input.dropLast f) := by
  have hne : input ≠ [] := by rintro rfl; simp [Spec.greedy] at hlast
  have hd := SortGrams.driver_spec input.length (List.length_pos_iff.2 hne) hn (input.length + 1) 0 (Pool.new mem extra) input (Pool.new_holds _ _)
    (fun r hr => (hP r hr).2) (by omega) (by omega)
  have hg : SortGrams.given (Spec.greedy mem [] input) = (Spec.greedy mem [] input).dropLast := by
    unfold SortGrams.given; rw [hlast, Option.map_some, if_pos (by simp)]
  have hfl := SortGrams.greedy_flatten mem [] input
  rw [List.nil_append] at hfl
  have hnon := SortGrams.greedy_nonempty mem [] input
  have hmem : ∀ b ∈ Spec.greedy mem [] input, ∀ y ∈ b, P y := fun b hb y hy => (hP y (hfl ▸ List.mem_flatten.2 ⟨b, hb, hy⟩)).1
  unfold SortGrams.sortGrams
  rw [hd]
  show (_ → Sorter.run sort lt fmt prs true input.length (SortGrams.given (Spec.greedy mem [] input)) = _) ∧ (_ → ∃ f, Sorter.run sort lt fmt prs true input.length (SortGrams.given (Spec.greedy mem [] input)) = _ ∧ _)
  rw [hg]
  generalize hB : Spec.greedy mem [] input = B at *
  obtain ⟨C, rfl⟩ : ∃ C, B = C ++ [[x]] := by
    have hBne : B ≠ [] := by rintro rfl; simp at hlast
    refine ⟨B.dropLast, ?_⟩
    rw [List.getLast?_eq_some_getLast hBne, Option.some.injEq] at hlast
    rw [← hlast, List.dropLast_concat_getLast hBne]
  rw [List.dropLast_concat]
  rw [List.flatten_append] at hfl
  simp only [List.flatten_cons, List.flatten_nil, List.append_nil] at hfl
  have hCl : ∀ c ∈ C, c.length < input.length := by
    intro c hcm
    have : c.length ≤ C.flatten.length := by
      obtain ⟨s, t, rfl⟩ := List.append_of_mem hcm
      simp; omega
    rw [← hfl, List.length_append, List.length_singleton]; omega
  constructor
  · intro h2
    rcases C with _ | ⟨c, _ | ⟨c', C⟩⟩
    · unfold Sorter.run Sorter.sortBatches
      simp only
      rw [Sorter.mergeBatches]; rfl
    · unfold Sorter.run
      rw [Sorter.sortBatches_small true input.length [c] fun b hb => by
        simp only [List.mem_singleton] at hb; subst hb
        exact ⟨hnon b (by simp), Nat.ne_of_lt (hCl b (by simp))⟩]
      simp only [List.map_cons, List.map_nil]
      rw [Sorter.mergeBatches]; rfl
    · simp at h2
  · intro h2
    obtain ⟨f, r, e1, e2, e3⟩ := Sorter.run_many hs hsort hc true input.length C (by simp at h2; omega) fun b hb =>
      ⟨hnon b (by simp [hb]), Nat.ne_of_lt (hCl b hb), hmem b (by simp [hb])⟩
    refine ⟨f, e1, ?_⟩
    rw [← hfl, List.dropLast_concat]
    exact SortedFile.perm e2 e3

end

/-! Non-vacuity: five records, sorted by value with memory for two of them at a time, in three batches; and the same records with the last batch a
single record. -/
namespace SortExample

/-- A comparator: by value. -/
def lt (a b : List Byte × Nat) : Bool := a.2 < b.2
/-- A sorting algorithm for it. -/
def sort (l : List (List Byte × Nat)) : List (List Byte × Nat) := l.mergeSort fun a b => !lt b a
/-- Six records of one byte. -/
def input : List (List Byte × Nat) := [([1], 3), ([2], 1), ([3], 2), ([4], 9), ([5], 1), ([6], 4)]

theorem weak : Spec.StrictWeak lt fun _ => True where
  irrefl := by intro a _; simp [lt]
  trans := by intro a b c _ _ _ h1 h2; simp [lt] at *; omega
  negtrans := by intro a b c _ _ _ h1 h2; simp [lt] at *; omega

theorem stdSort : Spec.StdSort sort lt fun _ => True := by
  intro l _
  refine ⟨List.mergeSort_perm _ _, ?_⟩
  have := List.pairwise_mergeSort (le := fun a b : List Byte × Nat => !lt b a) (by intro a b c h1 h2; simp [lt] at *; omega)
    (by intro a b; simp [lt]; omega) l
  exact this.imp fun h => by simpa using h

example : ∃ f, SortGrams.sortGrams sort lt id id 2 0 input = some (.ok [f]) ∧ Spec.SortedFile lt id true input f :=
  C34_sort_grams weak stdSort (fun _ _ _ _ => rfl) 2 0 input (by decide) (by intro r hr; refine ⟨trivial, ?_⟩; revert r; decide) ⟨[([5], 1), ([6], 4)], by decide, by decide⟩

example : ∃ f, SortGrams.sortGrams sort lt id id 2 0 (input.take 5) = some (.ok [f]) ∧ Spec.SortedFile lt id true (input.take 4) f :=
  (C34_last_record_lost_defect weak stdSort (fun _ _ _ _ => rfl) 2 0 (input.take 5) (by decide) (by intro r hr; refine ⟨trivial, ?_⟩; revert r; decide) (x := ([5], 1)) (by decide)).2 (by decide)

end SortExample

end Tongrams
