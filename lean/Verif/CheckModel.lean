import Verif.EndToEnd
import Verif.PefSave
import Verif.OwnTests
import Verif.Sizes

/-!
# The programs that query a count model in a file: `test_count_model` and `lookup_perf_test`

Property C58.  Both load a binary file, print its bytes and the number of n-grams, and look n-grams up: the first, those of the text
files the model was built from, comparing the counts; the second, those of a file of queries, several times.
-/

set_option linter.unusedSectionVars false

namespace Tongrams

/-- A count model as these programs use it: `order()`, `size()` and `lookup(gram, identity_adaptor)`, which may change its caches. -/
structure CountUse (M : Type) where
  order : M → Nat
  size : M → Nat
  look : M → List Byte → Option (Nat × M)

namespace CheckModel
variable {M : Type}

/-- The loop over the lines of a file (test_count_model.cpp:19-30): a line that is not found is reported with its number; otherwise the
counts must agree. -/
def checkLines (u : CountUse M) : Nat → List (List Byte × W) → M → Res (List Nat × M)
  | _, [], m => some (.ok ([], m))
  | i, l :: ls, m =>
    Res.bind (Res.lift (u.look m l.1)) fun a =>
    if a.1 = NF then Res.bind (checkLines u (i + 1) ls a.2) fun r => some (.ok (i :: r.1, r.2))
    else Res.bind (OwnTests.check a.1 l.2.toNat) fun _ => checkLines u (i + 1) ls a.2

/-- The loop over the orders (test_count_model.cpp:13-32), `n` of them from the file `k` of the folder on.  A file that is not there, or
that the parser rejects, ends the program with an error (parsers.hpp:255-304). -/
def checkOrders (u : CountUse M) (folder : List (List Byte)) : Nat → Nat → M → Res (List (List Nat) × M)
  | 0, _, m => some (.ok ([], m))
  | n + 1, k, m =>
    match folder[k]? with
    | none => some (.error ())
    | some file =>
      Res.bind (readGrams file) fun ls => Res.bind (checkLines u 0 ls m) fun r =>
      Res.bind (checkOrders u folder n (k + 1) r.2) fun q => some (.ok (r.1 :: q.1, q.2))

/-- What `test_count_model` prints: the bytes of the file, the number of n-grams, and for each order the lines not found. -/
structure Report where
  bytes : Nat
  grams : Nat
  missing : List (List Nat)
deriving DecidableEq, Repr

/-- `test_count_model binary_filename input_folder` (test_count_model.cpp:35-71), for the type of the file (Header.lean).  The files of
the folder are given decompressed, in the order of their names `1-grams.sorted.gz`, `2-grams.sorted.gz`, … -/
def testCountModel (u : CountUse M) (load : Rd M) (binary : List Byte) (folder : List (List Byte)) : Res Report :=
  Res.bind (Res.lift (loadFile load binary)) fun p =>
  Res.bind (checkOrders u folder (u.order p.1) 0 p.1) fun r => some (.ok ⟨p.2, u.size p.1, r.1⟩)

/-- `strings_pool` with the offsets that `lookup_perf_test` keeps (pools.hpp:11-45, lookup_perf_test.cpp:14-26): each line up to its first
tab is appended. -/
def fillPool : List (List Byte) → List Byte → List Nat → Option (List Byte × List Nat)
  | [], pool, offs => some (pool, offs)
  | l :: ls, pool, offs =>
    (Bytes.splitUponCheckEnd l l.length tab).bind fun br =>
      fillPool ls (pool ++ slice l br) (offs ++ [(pool ++ slice l br).length])

/-- One run over the queries (lookup_perf_test.cpp:48-52): `get_bytes(base, offsets[i], offsets[i + 1])` is looked up, from `i` on, `n`
times. -/
def perfRun (u : CountUse M) (pool : List Byte) (offs : List Nat) : Nat → Nat → M → Option (List Nat × M)
  | 0, _, m => some ([], m)
  | n + 1, i, m =>
    (offs[i]?).bind fun b => (offs[i + 1]?).bind fun e => (u.look m (slice pool (b, e))).bind fun a =>
      (perfRun u pool offs n (i + 1) a.2).map fun r => (a.1 :: r.1, r.2)

/-- The runs (lookup_perf_test.cpp:47-53). -/
def perfRuns (u : CountUse M) (pool : List Byte) (offs : List Nat) : Nat → M → Option (List (List Nat))
  | 0, _ => some []
  | k + 1, m => (perfRun u pool offs (offs.length - 1) 0 m).bind fun r => (perfRuns u pool offs k r.2).map (r.1 :: ·)

/-- What `lookup_perf_test` does: the bytes and the number of n-grams it prints, the number of queries by which it divides the time, and
the counts that each run gets. -/
structure Perf where
  bytes : Nat
  grams : Nat
  queries : Nat
  counts : List (List Nat)
deriving DecidableEq, Repr

/-- `lookup_perf_test index_filename query_filename runs` (lookup_perf_test.cpp:11-98), for the type of the file; no runs is an error
(lookup_perf_test.cpp:76-80).  `lines` are the lines of the query file (`emphf::file_lines`, external). -/
def perfTest (u : CountUse M) (load : Rd M) (binary : List Byte) (lines : List (List Byte)) (runs : Nat) : Res Perf :=
  if runs = 0 then some (.error ()) else
  Res.bind (Res.lift (fillPool lines [] [0])) fun po =>
  Res.bind (Res.lift (loadFile load binary)) fun p =>
  Res.bind (Res.lift (perfRuns u po.1 po.2 runs p.1)) fun cs => some (.ok ⟨p.2, u.size p.1, po.2.length - 1, cs⟩)

end CheckModel

open CheckModel

/-- Count tries whose queries change nothing (trie_count_lm.hpp:142-189, 280-291); `mem` is what lies in memory after the arrays. -/
def TrieCountStore.use {G : GramsData} {R : RanksData} (mem : List W) : CountUse (TrieCountStore (List Byte) G R) where
  order s := s.order
  size s := (s.arrs.map (·.size)).sum % 2 ^ 64
  look s q := ((s.toModel mem).lookupString q).map fun v => (v, s)

/-- Count tries with sequences that keep a position (trie_count_lm.hpp:142-189, 280-291). -/
def StCount.use {G : GramsSt} {R : RanksSt} : CountUse (StCount (List Byte) G R) where
  order t := t.order
  size t := (t.arrs.map (·.size)).sum % 2 ^ 64
  look t q := (queryWords q).bind t.lookup

/-- Hash models (mph_count_lm.hpp:71-92). -/
def MphCount.use {B : Nat} : CountUse (MphCount B) where
  order m := m.order
  size m := (m.tables.map (·.h.n)).sum % 2 ^ 64
  look m q := (m.lookup q).map fun v => (v, m)

/-- The builder on the bytes of the files, for tries with sequences that keep a position (include/trie_count_lm.hpp:16-98). -/
def StCount.buildFiles (L : SortLib) (hv : Mphf (List Byte) 64) (G : GramsSt) (R : RanksSt) (ro : Nat) (files : List (List Byte)) :
    Res (StCount (List Byte) G R) :=
  Res.bind (Res.mapM readGrams files) fun fs =>
  Res.bind (Res.lift (fs.mapM fun f => f.mapM fun r => (queryWords r.1).map fun ws => (ws, r.2.toNat))) fun data => StCount.build L hv G R ro data

/-! ## Specification -/

/-- The n-gram of a line of the query file: what precedes the first tab. -/
def Spec.queryOf (line : List Byte) : List Byte := line.takeWhile (· != tab)

/-- The lines of a file, from 0, whose n-gram gets the answer `NF`. -/
def Spec.missingLines (answer : List Byte → Nat) (f : List (List (List Byte) × Nat)) : List Nat :=
  f.zipIdx.filterMap fun r => if answer (joinSp r.1.1) = NF then some r.2 else none

/-- Text files that the parser reads back. -/
def Spec.TextFiles (files : List (List (List (List Byte) × Nat))) : Prop :=
  ∀ f ∈ files, f ≠ [] ∧ f.length < 2 ^ 64 ∧ ∀ r ∈ f, r.2 < 2 ^ 64 ∧ ∀ w ∈ r.1, Spec.FileWord w

/-! ## Proofs -/

namespace CheckModel
variable {M : Type} {u : CountUse M}

theorem checkLines_ok {Qs : List Byte → Prop} {P : M → Prop} {answer : List Byte → Nat} (hstep : ∀ m, P m → ∀ q, Qs q → ∃ m', u.look m q = some (answer q, m') ∧ P m') :
    ∀ (f : List (List (List Byte) × Nat)) (i : Nat) (m : M), P m → (∀ r ∈ f, Qs (joinSp r.1)) → (∀ r ∈ f, r.2 < 2 ^ 64) →
      ((∀ r ∈ f, answer (joinSp r.1) = NF ∨ answer (joinSp r.1) = r.2) →
        ∃ m', checkLines u i (f.map fun r => (joinSp r.1, BitVec.ofNat 64 r.2)) m =
          some (.ok ((f.zipIdx i).filterMap fun r => if answer (joinSp r.1.1) = NF then some r.2 else none, m')) ∧ P m') ∧
      (¬ (∀ r ∈ f, answer (joinSp r.1) = NF ∨ answer (joinSp r.1) = r.2) →
        checkLines u i (f.map fun r => (joinSp r.1, BitVec.ofNat 64 r.2)) m = some (.error ())) := by
  intro f
  induction f with
  | nil => intro i m hm _ _; exact ⟨fun _ => ⟨m, rfl, hm⟩, fun h => absurd (fun r hr => absurd hr List.not_mem_nil) h⟩
  | cons r f ih =>
    intro i m hm hq hc
    obtain ⟨m', e1, hm'⟩ := hstep m hm _ (hq r List.mem_cons_self)
    obtain ⟨ih1, ih2⟩ := ih (i + 1) m' hm' (fun x hx => hq x (List.mem_cons_of_mem _ hx)) (fun x hx => hc x (List.mem_cons_of_mem _ hx))
    have hr := hc r List.mem_cons_self
    have hcount : (BitVec.ofNat 64 r.2).toNat = r.2 := by rw [BitVec.toNat_ofNat, Nat.mod_eq_of_lt hr]
    rw [List.map_cons, checkLines, e1, Res.lift_some, Res.bind_ok]
    by_cases hnf : answer (joinSp r.1) = NF
    · rw [if_pos hnf]
      constructor
      · intro hall
        obtain ⟨m2, e2, hm2⟩ := ih1 fun x hx => hall x (List.mem_cons_of_mem _ hx)
        refine ⟨m2, ?_, hm2⟩
        rw [e2, Res.bind_ok, List.zipIdx_cons, List.filterMap_cons]
        simp only [hnf, if_true]
      · intro hall
        rw [ih2 (fun hx => hall fun x hxm => by
          rcases List.mem_cons.1 hxm with rfl | hxm
          · exact .inl hnf
          · exact hx x hxm)]
        rfl
    · rw [if_neg hnf]
      simp only [hcount]
      by_cases heq : answer (joinSp r.1) = r.2
      · rw [heq, OwnTests.check_eq, Res.bind_ok]
        constructor
        · intro hall
          obtain ⟨m2, e2, hm2⟩ := ih1 fun x hx => hall x (List.mem_cons_of_mem _ hx)
          refine ⟨m2, ?_, hm2⟩
          rw [e2, List.zipIdx_cons, List.filterMap_cons]
          simp only [hnf, if_false]
        · intro hall
          exact ih2 (fun hx => hall fun x hxm => by
            rcases List.mem_cons.1 hxm with rfl | hxm
            · exact .inr heq
            · exact hx x hxm)
      · constructor
        · intro hall
          rcases hall r List.mem_cons_self with h | h
          · exact absurd h hnf
          · exact absurd h heq
        · intro _
          unfold OwnTests.check
          rw [if_neg heq]
          rfl

theorem checkOrders_ok {Qs : List Byte → Prop} {P : M → Prop} {answer : List Byte → Nat} (hstep : ∀ m, P m → ∀ q, Qs q → ∃ m', u.look m q = some (answer q, m') ∧ P m')
    {files : List (List (List (List Byte) × Nat))} (ht : Spec.TextFiles files) (hq : ∀ f ∈ files, ∀ r ∈ f, Qs (joinSp r.1)) :
    ∀ (n k : Nat) (m : M), k + n = files.length → P m →
      ((∀ f ∈ files.drop k, ∀ r ∈ f, answer (joinSp r.1) = NF ∨ answer (joinSp r.1) = r.2) →
        ∃ m', checkOrders u (files.map Spec.gramsText) n k m = some (.ok ((files.drop k).map (Spec.missingLines answer), m')) ∧ P m') ∧
      (¬ (∀ f ∈ files.drop k, ∀ r ∈ f, answer (joinSp r.1) = NF ∨ answer (joinSp r.1) = r.2) →
        checkOrders u (files.map Spec.gramsText) n k m = some (.error ())) := by
  intro n
  induction n with
  | zero =>
    intro k m hk hm
    have : files.drop k = [] := List.drop_eq_nil_of_le (by omega)
    rw [this]
    exact ⟨fun _ => ⟨m, rfl, hm⟩, fun h => absurd (fun r hr => absurd hr List.not_mem_nil) h⟩
  | succ n ih =>
    intro k m hk hm
    have hkl : k < files.length := by omega
    have hmem : files[k] ∈ files := List.getElem_mem hkl
    obtain ⟨t1, t2, t3⟩ := ht _ hmem
    have hread := readGrams_text t1 t2 fun r hr => (t3 r hr).2
    obtain ⟨c1, c2⟩ := checkLines_ok hstep files[k] 0 m hm (hq _ hmem) fun r hr => (t3 r hr).1
    rw [List.drop_eq_getElem_cons hkl, checkOrders, List.getElem?_map, List.getElem?_eq_getElem hkl, Option.map_some]
    simp only []
    rw [hread, Res.bind_ok]
    constructor
    · intro hall
      obtain ⟨m1, e1, hm1⟩ := c1 (hall _ List.mem_cons_self)
      obtain ⟨m2, e2, hm2⟩ := (ih (k + 1) m1 (by omega) hm1).1 fun f hf => hall f (List.mem_cons_of_mem _ hf)
      refine ⟨m2, ?_, hm2⟩
      rw [e1, Res.bind_ok, e2, Res.bind_ok]
      rfl
    · intro hall
      by_cases hk0 : ∀ r ∈ files[k], answer (joinSp r.1) = NF ∨ answer (joinSp r.1) = r.2
      · obtain ⟨m1, e1, hm1⟩ := c1 hk0
        rw [e1, Res.bind_ok, (ih (k + 1) m1 (by omega) hm1).2 fun hx => hall fun f hf => by
          rcases List.mem_cons.1 hf with rfl | hf
          · exact hk0
          · exact hx f hf]
        rfl
      · rw [c2 hk0]
        rfl

theorem split_line (l : List Byte) : ∃ br, Bytes.splitUponCheckEnd l l.length tab = some br ∧ slice l br = Spec.queryOf l := by
  have hq : Spec.queryOf l = l.take (Spec.queryOf l).length := by
    unfold Spec.queryOf
    exact List.prefix_iff_eq_take.1 (List.takeWhile_prefix _)
  have hle : (Spec.queryOf l).length ≤ l.length := (List.takeWhile_prefix _).length_le
  refine ⟨(0, (Spec.queryOf l).length), ?_, ?_⟩
  · unfold Bytes.splitUponCheckEnd
    rw [Bytes.findFwd_spec (q := (Spec.queryOf l).length) (Nat.zero_le _) (by omega) ?_ ?_]
    · rfl
    · intro i _ hi
      have hm : (Spec.queryOf l)[i] ∈ Spec.queryOf l := List.getElem_mem hi
      have hne : ((Spec.queryOf l)[i] != tab) = true := by
        have := List.all_takeWhile (p := (· != tab)) (l := l)
        exact List.all_eq_true.1 this _ hm
      refine ⟨(Spec.queryOf l)[i], ?_, ?_⟩
      · have h1 : (Spec.queryOf l)[i]? = some ((Spec.queryOf l)[i]) := List.getElem?_eq_getElem hi
        have h2 : (Spec.queryOf l)[i]? = l[i]? := by
          conv_lhs => rw [hq]
          rw [List.getElem?_take, if_pos hi]
        rw [← h2, h1]
      · simpa using hne
    · by_cases hlt : (Spec.queryOf l).length < l.length
      · right
        refine ⟨l[(Spec.queryOf l).length], List.getElem?_eq_getElem hlt, ?_⟩
        have hd : l = Spec.queryOf l ++ l.dropWhile (· != tab) := (List.takeWhile_append_dropWhile).symm
        have h3 := List.getElem?_eq_getElem hlt
        have h4 : l[(Spec.queryOf l).length]? = (l.dropWhile (· != tab))[0]? := by
          have h7 : (Spec.queryOf l ++ l.dropWhile (· != tab))[(Spec.queryOf l).length]? = (l.dropWhile (· != tab))[0]? := by
            rw [List.getElem?_append_right (Nat.le_refl _), Nat.sub_self]
          rw [← hd] at h7
          exact h7
        rw [h3] at h4
        have h5 : (l.dropWhile (· != tab)).head? = some l[(Spec.queryOf l).length] := by rw [List.head?_eq_getElem?]; exact h4.symm
        have h6 := List.head?_dropWhile_not (· != tab) l
        rw [h5] at h6
        simpa using h6
      · left; omega
  · show (l.take ((Spec.queryOf l).length - 0)) = _
    rw [Nat.sub_zero, ← hq]

/-- Where the strings of a pool begin and end. -/
theorem fillPool_ok : ∀ (ls : List (List Byte)) (pool : List Byte) (offs : List Nat),
    fillPool ls pool offs = some (pool ++ (ls.map Spec.queryOf).flatten, offs ++ (Spec.psums pool.length (ls.map fun l => (Spec.queryOf l).length)))
  | [], pool, offs => by simp [fillPool, Spec.psums]
  | l :: ls, pool, offs => by
    obtain ⟨br, e1, e2⟩ := split_line l
    rw [fillPool, e1, Option.bind_some, e2, fillPool_ok ls, List.map_cons, List.flatten_cons, List.map_cons, Spec.psums, List.length_append]
    simp

end CheckModel

namespace CheckModel
variable {M : Type} {u : CountUse M}

theorem perfRun_ok {Qs : List Byte → Prop} {P : M → Prop} {answer : List Byte → Nat}
    (hstep : ∀ m, P m → ∀ q, Qs q → ∃ m', u.look m q = some (answer q, m') ∧ P m') :
    ∀ (qs : List (List Byte)) (before : List Byte) (pre : List Nat) (m : M), P m → (∀ q ∈ qs, Qs q) →
      ∃ m', perfRun u (before ++ qs.flatten) (pre ++ before.length :: Spec.psums before.length (qs.map List.length)) qs.length pre.length m =
        some (qs.map answer, m') ∧ P m'
  | [], _, _, m, hm, _ => ⟨m, rfl, hm⟩
  | q :: qs, before, pre, m, hm, hq => by
    obtain ⟨m1, e1, hm1⟩ := hstep m hm q (hq q List.mem_cons_self)
    obtain ⟨m2, e2, hm2⟩ := perfRun_ok hstep qs (before ++ q) (pre ++ [before.length]) m1 hm1 fun x hx => hq x (List.mem_cons_of_mem _ hx)
    refine ⟨m2, ?_, hm2⟩
    rw [List.length_append, List.length_append, List.length_singleton, List.append_assoc, List.append_assoc, List.singleton_append] at e2
    rw [List.map_cons, Spec.psums, List.length_cons, perfRun, List.flatten_cons]
    have h1 : (pre ++ before.length :: (before.length + q.length) :: Spec.psums (before.length + q.length) (qs.map List.length))[pre.length]? =
        some before.length := by rw [List.getElem?_append_right (Nat.le_refl _), Nat.sub_self]; rfl
    have h2 : (pre ++ before.length :: (before.length + q.length) :: Spec.psums (before.length + q.length) (qs.map List.length))[pre.length + 1]? =
        some (before.length + q.length) := by
      rw [List.getElem?_append_right (Nat.le_add_right _ _), Nat.add_sub_cancel_left]; rfl
    have h3 : slice (before ++ (q ++ qs.flatten)) (before.length, before.length + q.length) = q := by
      show ((before ++ (q ++ qs.flatten)).drop before.length).take (before.length + q.length - before.length) = q
      rw [List.drop_left, Nat.add_sub_cancel_left, List.take_left]
    rw [h1, Option.bind_some, h2, Option.bind_some, h3, e1, Option.bind_some, e2]
    rfl

theorem perfRuns_ok {Qs : List Byte → Prop} {P : M → Prop} {answer : List Byte → Nat}
    (hstep : ∀ m, P m → ∀ q, Qs q → ∃ m', u.look m q = some (answer q, m') ∧ P m') (qs : List (List Byte)) (hq : ∀ q ∈ qs, Qs q) :
    ∀ (k : Nat) (m : M), P m → perfRuns u qs.flatten (0 :: Spec.psums 0 (qs.map List.length)) k m = some (List.replicate k (qs.map answer))
  | 0, _, _ => rfl
  | k + 1, m, hm => by
    obtain ⟨m1, e1, hm1⟩ := perfRun_ok hstep qs [] [] m hm hq
    rw [List.nil_append, List.nil_append] at e1
    have hl : (0 :: Spec.psums 0 (qs.map List.length)).length - 1 = qs.length := by
      rw [List.length_cons, Nat.add_sub_cancel, TriePtrs.psums_length, List.length_map]
    rw [perfRuns, hl]
    have e1' : perfRun u qs.flatten (0 :: Spec.psums 0 (qs.map List.length)) qs.length 0 m = some (qs.map answer, m1) := e1
    rw [e1', Option.bind_some]
    have := perfRuns_ok hstep qs hq k m1 hm1
    rw [this]
    rfl

/-- What `test_count_model` does for a model that answers `answer`. -/
theorem testCountModel_ok {Qs : List Byte → Prop} {P : M → Prop} {answer : List Byte → Nat}
    (hstep : ∀ m, P m → ∀ q, Qs q → ∃ m', u.look m q = some (answer q, m') ∧ P m')
    {files : List (List (List (List Byte) × Nat))} (ht : Spec.TextFiles files) (hq : ∀ f ∈ files, ∀ r ∈ f, Qs (joinSp r.1))
    {load : Rd M} {binary : List Byte} {m : M} {n : Nat} (hl : loadFile load binary = some (m, n)) (hm : P m) (ho : u.order m = files.length) :
    ((∀ f ∈ files, ∀ r ∈ f, answer (joinSp r.1) = NF ∨ answer (joinSp r.1) = r.2) →
      testCountModel u load binary (files.map Spec.gramsText) = some (.ok ⟨n, u.size m, files.map (Spec.missingLines answer)⟩)) ∧
    (¬ (∀ f ∈ files, ∀ r ∈ f, answer (joinSp r.1) = NF ∨ answer (joinSp r.1) = r.2) →
      testCountModel u load binary (files.map Spec.gramsText) = some (.error ())) := by
  obtain ⟨c1, c2⟩ := checkOrders_ok hstep ht hq files.length 0 m (by omega) hm
  rw [List.drop_zero] at c1 c2
  unfold testCountModel
  rw [hl, Res.lift_some, Res.bind_ok]
  simp only [ho]
  constructor
  · intro hall
    obtain ⟨m1, e1, -⟩ := c1 hall
    rw [e1, Res.bind_ok]
  · intro hall
    rw [c2 hall]
    rfl

/-- What `lookup_perf_test` does for a model that answers `answer`. -/
theorem perfTest_ok {Qs : List Byte → Prop} {P : M → Prop} {answer : List Byte → Nat}
    (hstep : ∀ m, P m → ∀ q, Qs q → ∃ m', u.look m q = some (answer q, m') ∧ P m')
    {lines : List (List Byte)} (hq : ∀ l ∈ lines, Qs (Spec.queryOf l)) {runs : Nat} (hr : 0 < runs)
    {load : Rd M} {binary : List Byte} {m : M} {n : Nat} (hl : loadFile load binary = some (m, n)) (hm : P m) :
    perfTest u load binary lines runs =
      some (.ok ⟨n, u.size m, lines.length, List.replicate runs (lines.map fun l => answer (Spec.queryOf l))⟩) := by
  have hmap : (lines.map fun l => (Spec.queryOf l).length) = (lines.map Spec.queryOf).map List.length := by rw [List.map_map]; rfl
  have := perfRuns_ok hstep (lines.map Spec.queryOf) (by
    intro q hqm
    obtain ⟨l, hl, rfl⟩ := List.mem_map.1 hqm
    exact hq l hl) runs m hm
  unfold perfTest
  rw [if_neg (by omega), fillPool_ok, Res.lift_some, Res.bind_ok, hl, Res.lift_some, Res.bind_ok]
  simp only [List.nil_append, List.length_nil, List.singleton_append]
  rw [hmap, this, Res.lift_some, Res.bind_ok, List.length_cons, Nat.add_sub_cancel, TriePtrs.psums_length, List.length_map, List.length_map, List.map_map]
  rfl

end CheckModel

namespace CheckModel
variable {M : Type} {u : CountUse M}

/-- Both programs, on a model that answers as `L` whenever `L` does, for files whose counts `L` gives. -/
theorem programs_ok {P : M → Prop} {L : List Byte → Option Nat}
    (hstep : ∀ m, P m → ∀ q a, L q = some a → ∃ m', u.look m q = some (a, m') ∧ P m')
    {files : List (List (List (List Byte) × Nat))} (ht : Spec.TextFiles files) (hcount : ∀ f ∈ files, ∀ r ∈ f, r.2 < NF)
    (hf : ∀ f ∈ files, ∀ r ∈ f, L (joinSp r.1) = some r.2)
    {load : Rd M} {binary : List Byte} {m : M} {n size : Nat} (hl : loadFile load binary = some (m, n)) (hm : P m) (ho : u.order m = files.length)
    (hs : u.size m = size) :
    testCountModel u load binary (files.map Spec.gramsText) = some (.ok ⟨n, size, List.replicate files.length []⟩) ∧
    ∀ (qs : List (List Byte × List (List Byte) × Nat)) (runs : Nat), 0 < runs → (∀ q ∈ qs, L (Spec.queryOf q.1) = some q.2.2) →
      perfTest u load binary (qs.map (·.1)) runs = some (.ok ⟨n, size, qs.length, List.replicate runs (qs.map (·.2.2))⟩) := by
  have hstep' : ∀ m, P m → ∀ q, (∃ a, L q = some a) → ∃ m', u.look m q = some ((L q).getD 0, m') ∧ P m' := by
    rintro m hm q ⟨a, ha⟩
    obtain ⟨m', e1, e2⟩ := hstep m hm q a ha
    exact ⟨m', by rw [ha]; exact e1, e2⟩
  constructor
  · rw [(testCountModel_ok (answer := fun q => (L q).getD 0) hstep' ht (fun f hfm r hr => ⟨_, hf f hfm r hr⟩) hl hm ho).1 (by
      intro f hfm r hr
      right
      simp only [hf f hfm r hr, Option.getD_some]), hs]
    have hmiss : files.map (Spec.missingLines fun q => (L q).getD 0) = List.replicate files.length [] := by
      rw [List.eq_replicate_iff, List.length_map]
      refine ⟨rfl, ?_⟩
      intro x hx
      obtain ⟨f, hfm, rfl⟩ := List.mem_map.1 hx
      unfold Spec.missingLines
      rw [List.filterMap_eq_nil_iff]
      rintro ⟨r, i⟩ hri
      have hr := (List.mem_zipIdx hri).2.2
      simp only [Nat.sub_zero] at hr
      have hrm : r ∈ f := by rw [hr]; exact List.getElem_mem _
      have := hcount f hfm r hrm
      simp only [hf f hfm r hrm, Option.getD_some]
      rw [if_neg (by omega)]
    rw [hmiss]
  · intro qs runs hr hq
    rw [perfTest_ok (answer := fun q => (L q).getD 0) hstep' (lines := qs.map (·.1)) (by
      intro l hlm
      obtain ⟨q, hqm, rfl⟩ := List.mem_map.1 hlm
      exact ⟨_, hq q hqm⟩) hr hl hm, hs, List.length_map, List.map_map]
    have hmap : qs.map ((fun l => (L (Spec.queryOf l)).getD 0) ∘ fun x => x.1) = qs.map (·.2.2) := by
      apply List.map_congr_left
      intro q hqm
      simp only [Function.comp, hq q hqm, Option.getD_some]
    rw [hmap]

end CheckModel

/-! ## Properties -/

/-- **C58**: what `test_count_model` tells of any model in a file, if its queries do not change it.  It ends without aborting exactly if every n-gram of the text files
is either not found or gets its count; it then reports the lines that are not found, and no others. -/
theorem C58_test_compares_every_count {M : Type} (u : CountUse M) {load : Rd M} {binary : List Byte} {m : M} {n : Nat}
    (hl : loadFile load binary = some (m, n)) {files : List (List (List (List Byte) × Nat))} (ho : u.order m = files.length)
    (ht : Spec.TextFiles files) {answer : List Byte → Nat}
    (hlook : ∀ f ∈ files, ∀ r ∈ f, u.look m (joinSp r.1) = some (answer (joinSp r.1), m)) :
    ((∀ f ∈ files, ∀ r ∈ f, answer (joinSp r.1) = NF ∨ answer (joinSp r.1) = r.2) →
      testCountModel u load binary (files.map Spec.gramsText) = some (.ok ⟨n, u.size m, files.map (Spec.missingLines answer)⟩)) ∧
    ((∃ f ∈ files, ∃ r ∈ f, answer (joinSp r.1) ≠ NF ∧ answer (joinSp r.1) ≠ r.2) →
      testCountModel u load binary (files.map Spec.gramsText) = some (.error ())) := by
  have h := testCountModel_ok (u := u) (P := fun x => x = m) (Qs := fun q => ∃ f ∈ files, ∃ r ∈ f, q = joinSp r.1) (answer := answer) (by
    rintro x rfl q ⟨f, hf, r, hr, rfl⟩
    exact ⟨x, hlook f hf r hr, rfl⟩) ht (fun f hf r hr => ⟨f, hf, r, hr, rfl⟩) hl rfl ho
  refine ⟨h.1, ?_⟩
  rintro ⟨f, hf, r, hr, h1, h2⟩
  refine h.2 fun hall => ?_
  rcases hall f hf r hr with h3 | h3
  · exact h1 h3
  · exact h2 h3

/-- **C58**: `lookup_perf_test` looks up, in each run, what precedes the first tab of each line of the query file, in order, and divides by the number of lines:
for any model in a file, if its queries do not change it. -/
theorem C58_perf_test_looks_up_each_line {M : Type} (u : CountUse M) {load : Rd M} {binary : List Byte} {m : M} {n : Nat}
    (hl : loadFile load binary = some (m, n)) {lines : List (List Byte)} {runs : Nat} (hr : 0 < runs) {answer : List Byte → Nat}
    (hlook : ∀ l ∈ lines, u.look m (Spec.queryOf l) = some (answer (Spec.queryOf l), m)) :
    perfTest u load binary lines runs =
      some (.ok ⟨n, u.size m, lines.length, List.replicate runs (lines.map fun l => answer (Spec.queryOf l))⟩) :=
  perfTest_ok (u := u) (P := fun x => x = m) (Qs := fun q => ∃ l ∈ lines, q = Spec.queryOf l) (by
    rintro x rfl q ⟨l, hlm, rfl⟩
    exact ⟨x, hlook l hlm, rfl⟩) (fun l hlm => ⟨l, hlm, rfl⟩) hr hl rfl

/-- The text files of a count trie. -/
theorem CheckModel.text_of {U : List (List Byte)} {files : List (List (List (List Byte) × Nat))} {ro : Nat}
    (h : Spec.CountFiles U files ro) (hw : ∀ f ∈ files, f ≠ [] ∧ ∀ r ∈ f, ∀ w ∈ r.1, Spec.FileWord w) : Spec.TextFiles files := by
  intro f hf
  have h1 := TrieCount.len_of_size h hf
  refine ⟨(hw f hf).1, by omega, fun r hr => ⟨?_, (hw f hf).2 r hr⟩⟩
  have := h.counts f hf r hr
  omega

/-- A query of the perf test for a trie: the line gives the n-gram, which is listed with the count told, or is absent (C25). -/
def Spec.TrieQuery (absent : List (List Byte) → Prop) (files : List (List (List (List Byte) × Nat))) (q : List Byte × List (List Byte) × Nat) : Prop :=
  Spec.queryOf q.1 = joinSp q.2.1 ∧
    ((∃ f ∈ files, q.2 ∈ f) ∨ (q.2.2 = NF ∧ absent q.2.1 ∧ q.2.1 ≠ [] ∧ ∀ w ∈ q.2.1, w ≠ [] ∧ sp ∉ w))

/-- **C58** (count tries).  For a trie built from text files and saved, `test_count_model` on the binary file and the same text files prints its bytes and the
number of n-grams, and finds every n-gram with its count; `lookup_perf_test` gets, in each run, the count of each query listed in the files, and not-found for
each absent one that C25 covers. -/
theorem C58_count_trie {L : SortLib} (hL : L.Valid) {U : List (List Byte)} {files : List (List (List (List Byte) × Nat))} {ro : Nat}
    (h : Spec.CountFiles U files ro) (hw : ∀ f ∈ files, f ≠ [] ∧ ∀ r ∈ f, ∀ w ∈ r.1, Spec.FileWord w)
    {hv : Mphf (List Byte) 64} (hb : hv.BuiltFrom U) {hr : Nat → Mphf Nat 64} (hh : Spec.RangeHashes hr files) (cr : CountRanks)
    (hcr : cr = .psef → ∀ f ∈ files, f.length < 2 ^ 32)
    {c : Emphf (List Byte) 64} (hc : Spec.EmphfReads c hv) {c' : Emphf Nat 64} (hc' : ∀ k, Spec.EmphfReads c' (hr k)) {junk : UTable Nat 64}
    (hju : junk.Fits c') {j : Junk (GramsData.fastEF hr c' junk) cr.data} (hj1 : FastEF.Fits c' j.grams) (hj2 : cr.data.fits j.ranks)
    (hj3 : j.ptrs.Fits) (header : Byte) (mem : List W) :
    ∃ (s : TrieCountStore (List Byte) (GramsData.fastEF hr c' junk) cr.data) (binary : List Byte),
      TrieCountStore.buildFiles L hv _ _ ro (files.map Spec.gramsText) = some (.ok s) ∧ saveFile header (s.save c j) = binary ∧
      testCountModel (TrieCountStore.use mem) (TrieCountStore.load (GramsData.fastEF hr c' junk) cr.data c) binary (files.map Spec.gramsText) =
        some (.ok ⟨binary.length, (files.map List.length).sum, List.replicate files.length []⟩) ∧
      ∀ (qs : List (List Byte × List (List Byte) × Nat)) (runs : Nat), 0 < runs → (∀ q ∈ qs, Spec.TrieQuery (Spec.EfAbsent hv U files ro) files q) →
        perfTest (TrieCountStore.use mem) (TrieCountStore.load (GramsData.fastEF hr c' junk) cr.data c) binary (qs.map (·.1)) runs =
          some (.ok ⟨binary.length, (files.map List.length).sum, qs.length, List.replicate runs (qs.map (·.2.2))⟩) := by
  have key : ∀ mem : List W, Res.map (TrieCountStore.toModel mem) (TrieCountStore.build L hv (GramsData.fastEF hr c' junk) cr.data ro files) =
      TrieCount.build L hv (GramsImpl.fastEF hr) cr.impl ro files := by
    intro mem
    rw [← TrieCountStore.build_impl, GramsData.fastEF_impl, CountRanks.data_impl]
  obtain ⟨s, s', e1, e2, e3, e4⟩ := C36_count_trie_through_a_file hL h hb hh cr hcr hc hc' hju hj1 hj2 hj3 header
  obtain ⟨t, e5, e6⟩ := C25_absent_gram_not_found hL h hb hh cr hcr
  have hk := key mem
  rw [e1, e5] at hk
  have hst : s.toModel mem = t := by simpa [Res.map, Res.bind] using hk
  have hgram := files_grams h hw
  -- the order and the sizes of the loaded trie
  obtain ⟨s0, g1, g2, -, g4⟩ := Stats.count_laid (c' := c') (junk := junk) hL h hb hh cr hcr
  rw [e1] at g1
  cases g1
  obtain ⟨h0, h1, h2, h3, h4, h5, h6, h7⟩ := TrieCountStore.build_fits hL h hb hh cr hc hc' hju hj1 hj2 hj3 e1
  obtain ⟨l', f1, f2, f3⟩ := Stats.loadAll_kept cr.data_std (l := s.arrs) (by intro e; rw [e] at h4; simp at h4; omega) h7
  rw [h4] at f1
  have ec := getN_putAll fun x hx => C36_compact_vector (h5 x hx)
  rw [h3] at ec
  have hrd : Spec.Reads (TrieCountStore.load (GramsData.fastEF hr c' junk) cr.data c) (s.save c j) ⟨s.order, s.ro, s.voc, l', s.counts⟩ :=
    .bind (getU1 h1) (.bind (getU1 h2) (.bind ec (.bind ((C36_tables rfl).1 _ h6) (.last f1 rfl))))
  have hs' := C36_file hrd header
  rw [e2] at hs'
  injection hs' with hs'
  injection hs' with hs' _
  have hsizes : s'.arrs.map (·.size) = files.map List.length := by
    rw [hs']
    have hl' : l'.length = files.length := by rw [f2, g4.len, List.length_map]
    apply List.ext_getElem?
    intro i
    rw [List.getElem?_map, List.getElem?_map]
    by_cases hi : i < files.length
    · obtain ⟨a, a1, a2, -⟩ := g4.array i (files[i].map (·.1)) (by rw [List.getElem?_map, List.getElem?_eq_getElem hi]; rfl)
      obtain ⟨a', b1, b2⟩ := f3 i a a1
      rw [b1, List.getElem?_eq_getElem hi, Option.map_some, Option.map_some, b2.size, a2, List.length_map]
    · rw [List.getElem?_eq_none (by show l'.length ≤ i; omega), List.getElem?_eq_none (by omega)]
      rfl
  have hlook : ∀ (gram : List (List Byte)) (a : Nat), gram ≠ [] → (∀ w ∈ gram, w ≠ [] ∧ sp ∉ w) → (s'.toModel mem).lookup gram = some a →
      (s'.toModel mem).lookupString (joinSp gram) = some a := by
    intro gram a n1 n2 hl
    unfold TrieCount.lookupString
    rw [queryWords_ok n1 n2, Option.bind_some, hl]
  have hprog := programs_ok (u := TrieCountStore.use mem) (P := fun x => x = s') (L := (s'.toModel mem).lookupString) (by
    rintro m rfl q a hq
    exact ⟨m, by show ((m.toModel mem).lookupString q).map _ = _; rw [hq]; rfl, rfl⟩) (text_of h hw) (by
      intro f hf r hr
      have := h.counts f hf r hr
      unfold NF; omega) (fun f hf r hr => hlook r.1 r.2 (hgram f hf r hr).1 (hgram f hf r hr).2 (e4 mem f hf r.1 r.2 hr)) e2 rfl (by
      show s'.order = _
      rw [hs']; exact g2) (size := (files.map List.length).sum) (by
      show (s'.arrs.map (·.size)).sum % 2 ^ 64 = _
      rw [hsizes, Nat.mod_eq_of_lt (Sizes.files_sum h)])
  refine ⟨s, _, by rw [TrieCountStore.buildFiles_eq L h hw, e1], rfl, hprog.1, fun qs runs hruns hq => hprog.2 qs runs hruns fun q hqm => ?_⟩
  obtain ⟨q1, q2⟩ := hq q hqm
  rw [q1]
  rcases q2 with ⟨f, hf, hqf⟩ | ⟨q2, ⟨a1, a2, a3, a4, a5, a6⟩, q4, q5⟩
  · exact hlook _ _ (hgram f hf _ hqf).1 (hgram f hf _ hqf).2 (e4 mem f hf _ _ hqf)
  · refine hlook _ _ q4 q5 (e3 mem _ _ ?_)
    rw [hst, q2]
    exact e6 _ a1 a2 a3 a4 a5 a6

/-- The number of n-grams of a hash model. -/
theorem CheckModel.hash_size {B : Nat} {L : SortLib} {mem extra : Nat} {files : List (List (List (List Byte) × Nat))}
    (h : Spec.CountLists mem files) (hB : B = 64 ∨ (B = 32 ∧ ∀ f ∈ files, f.length < 2 ^ 26)) (hn : ∀ f ∈ files, f.length < 2 ^ 57)
    {hs : Nat → Mphf (List Byte) B}
    (hb : ∀ (k : Nat) (f : List (List (List Byte) × Nat)), files[k]? = some f → (hs k).BuiltFrom (f.map fun r => joinSp r.1))
    {m : MphCount B} (e : MphCount.build L mem extra hs (Spec.lines files) = some (.ok m)) :
    m.order = files.length ∧ (m.tables.map (·.h.n)).sum % 2 ^ 64 = (files.map List.length).sum := by
  have hB' : B = 32 ∨ B = 64 := by rcases hB with h | ⟨h, -⟩ <;> omega
  unfold MphCount.build at e
  split at e
  · cases e
  obtain ⟨colls, e3, e⟩ := Res.bind_ok_iff e
  obtain ⟨ts, e4, e⟩ := Res.bind_ok_iff e
  cases e
  have lc := Res.mapM_length e3
  have lt := Res.mapM_length e4
  rw [List.length_zipIdx, List.length_zip, lc, Nat.min_self] at lt
  have hl : (Spec.lines files).length = files.length := List.length_map _
  refine ⟨hl, ?_⟩
  have hmap : ts.map (·.h.n) = files.map List.length := by
    apply List.ext_getElem?
    intro k
    rw [List.getElem?_map, List.getElem?_map]
    by_cases hk : k < files.length
    · have hf : files[k]? = some files[k] := List.getElem?_eq_getElem hk
      have ht : ts[k]? = some (ts[k]'(by omega)) := List.getElem?_eq_getElem _
      generalize ts[k]'(by omega) = t at ht
      obtain ⟨⟨⟨g, x⟩, k'⟩, hp, e⟩ := Res.mapM_get? e4 k t ht
      rw [List.getElem?_zipIdx] at hp
      obtain ⟨p, hp', e0⟩ := Option.map_eq_some_iff.1 hp
      cases e0
      have hg := (zip_get? hp').1
      rw [Spec.lines, List.getElem?_map, hf] at hg
      cases hg
      unfold MphCount.buildTable at e
      obtain ⟨pool, e5, e⟩ := Res.bind_ok_iff e
      have h5 := Sizes.tableOf_facts hB' (Res.lift_ok_iff e)
      have hbk := Sizes.builtFrom_n (hb k _ hf)
      rw [List.length_map] at hbk
      rw [ht, hf, Option.map_some, Option.map_some, h5.1]
      simp only [Nat.zero_add]
      rw [hbk]
    · rw [List.getElem?_eq_none (by omega), List.getElem?_eq_none (by omega)]
      rfl
  show (ts.map (·.h.n)).sum % 2 ^ 64 = _
  rw [hmap]
  apply Nat.mod_eq_of_lt
  have hle : ∀ x ∈ files.map List.length, x ≤ 2 ^ 57 := by
    intro x hx
    obtain ⟨f, hf, rfl⟩ := List.mem_map.1 hx
    have := hn f hf
    omega
  have := Stats.sum_le_mul _ hle
  have h8 := h.order_max
  rw [List.length_map] at this
  have h9 : files.length * 2 ^ 57 ≤ 8 * 2 ^ 57 := Nat.mul_le_mul_right _ h8
  omega

/-- **C58** (hash count models): the same; absent queries are not covered (C26). -/
theorem C58_hash_count {B : Nat} {L : SortLib} (hL : L.Valid) {mem extra : Nat} {files : List (List (List (List Byte) × Nat))}
    (h : Spec.CountLists mem files) (hw : ∀ f ∈ files, ∀ r ∈ f, ∀ w ∈ r.1, Spec.FileWord w)
    (hB : B = 64 ∨ (B = 32 ∧ ∀ f ∈ files, f.length < 2 ^ 26)) (hn : ∀ f ∈ files, f.length < 2 ^ 57) {hs : Nat → Mphf (List Byte) B}
    (hb : ∀ (k : Nat) (f : List (List (List Byte) × Nat)), files[k]? = some f → (hs k).BuiltFrom (f.map fun r => joinSp r.1))
    {c : Emphf (List Byte) B} (hc : ∀ k, Spec.EmphfReads c (hs k)) (header : Byte) :
    ∃ (m : MphCount B) (binary : List Byte), MphCount.buildFiles L mem extra hs (files.map Spec.gramsText) = some (.ok m) ∧
      saveFile header (m.save c) = binary ∧
      testCountModel MphCount.use (MphCount.load c) binary (files.map Spec.gramsText) =
        some (.ok ⟨binary.length, (files.map List.length).sum, List.replicate files.length []⟩) ∧
      ∀ (qs : List (List Byte × List (List Byte) × Nat)) (runs : Nat), 0 < runs →
        (∀ q ∈ qs, Spec.queryOf q.1 = joinSp q.2.1 ∧ ∃ f ∈ files, q.2 ∈ f) →
        perfTest MphCount.use (MphCount.load c) binary (qs.map (·.1)) runs =
          some (.ok ⟨binary.length, (files.map List.length).sum, qs.length, List.replicate runs (qs.map (·.2.2))⟩) := by
  obtain ⟨m, e1, e2, e3⟩ := C36_hash_count_through_a_file hL (extra := extra) h hB hn hb hc header
  obtain ⟨o1, o2⟩ := CheckModel.hash_size h hB hn hb e1
  have hfiles : MphCount.buildFiles L mem extra hs (files.map Spec.gramsText) = some (.ok m) := by
    obtain ⟨m1, -, f1, -⟩ := C50_hash_count hL (extra := extra) h hw hB hn hb hc header
    unfold MphCount.buildFiles at f1 ⊢
    rw [Res.mapM_map_ok (h := fun f => f.map fun r => (joinSp r.1, BitVec.ofNat 64 r.2)) fun f hf =>
      readGrams_text (h.nonempty f hf) (by have := hn f hf; omega) (hw f hf), Res.bind_ok, ← e1]
    congr 1
    unfold Spec.lines
    rw [List.map_map]
    apply List.map_congr_left
    intro f hf
    rw [Function.comp, List.map_map]
    apply List.map_congr_left
    intro r hr
    rw [Function.comp, BitVec.toNat_ofNat, Nat.mod_eq_of_lt (Nat.lt_of_lt_of_le (h.counts f hf r hr) (Nat.sub_le _ _))]
  have hprog := programs_ok (u := MphCount.use) (P := fun x => x = m) (L := m.lookup) (by
    rintro x rfl q a hq
    exact ⟨x, by show (x.lookup q).map _ = _; rw [hq]; rfl, rfl⟩) (files := files) (by
      intro f hf
      refine ⟨h.nonempty f hf, by have := hn f hf; omega, fun r hr => ⟨?_, hw f hf r hr⟩⟩
      have := h.counts f hf r hr
      omega) (by
      intro f hf r hr
      have := h.counts f hf r hr
      unfold NF; omega) (fun f hf r hr => e3 f hf r.1 r.2 hr) e2 rfl o1 (size := (files.map List.length).sum) o2
  refine ⟨m, _, hfiles, rfl, hprog.1, fun qs runs hruns hq => hprog.2 qs runs hruns fun q hqm => ?_⟩
  obtain ⟨q1, f, hf, hqf⟩ := hq q hqm
  rw [q1]
  exact e3 f hf _ _ hqf

/-- Building keeps the sizes of the arrays. -/
theorem buildLevels_sizes {K : Type} [DecidableEq K] {I : GramsImpl} {J : RanksImpl} {voc : K → Option Nat} {check : Bool} {ro vocSize : Nat} :
    ∀ (rest : List (List (List K) × List Nat × Nat)) (k : Nat) (prev : List (List K)) {A A' : List SortedArray}, 1 ≤ k →
    buildLevels I J voc check ro vocSize k prev rest A = some (.ok A') → A'.map (·.size) = A.map (·.size) := by
  intro rest
  induction rest with
  | nil => intro k prev A A' _ h; cases h; rfl
  | cons x rest ih =>
    intro k prev A A' hk h
    obtain ⟨curr, ranks, w⟩ := x
    rw [buildLevels] at h
    obtain ⟨A1, h1, h2⟩ := Res.bind_ok_iff h
    rw [ih _ _ (by omega) h2]
    unfold buildLevel at h1
    obtain ⟨ptrs, -, h⟩ := Res.bind_ok_iff h1
    obtain ⟨ids, -, h⟩ := Res.bind_ok_iff h
    split at h
    · cases h
    obtain ⟨ids', -, h⟩ := Res.bind_ok_iff h
    obtain ⟨f, -, h⟩ := Res.bind_ok_iff h
    obtain ⟨ranks', -, h⟩ := Res.bind_ok_iff h
    obtain ⟨g, -, h⟩ := Res.bind_ok_iff h
    obtain ⟨e, -, h⟩ := Res.bind_ok_iff h
    obtain ⟨a, ha, h⟩ := Option.bind_eq_some_iff.1 (Res.lift_ok_iff h)
    obtain ⟨ap, hap, rfl⟩ := Option.map_eq_some_iff.1 h
    have hsa : (A.map (·.size))[k]? = some a.size := by rw [List.getElem?_map, ha]; rfl
    have hsp : (A.map (·.size))[k - 1]? = some ap.size := by rw [List.getElem?_map, hap]; rfl
    rw [List.map_set, List.map_set]
    apply List.ext_getElem?
    intro i
    rw [List.getElem?_set, List.getElem?_set]
    by_cases h1 : k - 1 = i
    · rw [if_pos h1]
      subst h1
      have := (List.getElem?_eq_some_iff.1 hsp).1
      rw [if_pos (by rw [List.length_set]; exact this), hsp]
    · rw [if_neg h1]
      by_cases h2 : k = i
      · rw [if_pos h2]
        subst h2
        rw [if_pos (List.getElem?_eq_some_iff.1 hsa).1, hsa]
      · rw [if_neg h2]

theorem TrieCount.build_sizes {K : Type} [DecidableEq K] {L : SortLib} {hv : Mphf K 64} {I : GramsImpl} {J : RanksImpl} {ro : Nat}
    {files : List (List (List K × Nat))} {t : TrieCount K} (e : TrieCount.build L hv I J ro files = some (.ok t)) :
    t.order = files.length ∧ t.arrs.map (·.size) = files.map List.length := by
  unfold TrieCount.build at e
  split at e
  · cases e
  obtain ⟨colls, -, e⟩ := Res.bind_ok_iff e
  obtain ⟨rks, -, e⟩ := Res.bind_ok_iff e
  obtain ⟨r0, -, e⟩ := Res.bind_ok_iff e
  obtain ⟨g0, -, e⟩ := Res.bind_ok_iff e
  obtain ⟨voc, -, e⟩ := Res.bind_ok_iff e
  obtain ⟨f0, -, e⟩ := Res.bind_ok_iff e
  obtain ⟨arrs, e1, e⟩ := Res.bind_ok_iff e
  cases e
  refine ⟨rfl, ?_⟩
  show arrs.map (·.size) = _
  rw [buildLevels_sizes _ _ _ (Nat.le_refl 1) e1]
  cases files with
  | nil => rfl
  | cons f fs =>
    rw [List.map_cons, List.modifyHead_cons, List.map_cons, List.map_map]
    rfl

theorem StCount.buildFiles_eq (L : SortLib) {U : List (List Byte)} {files : List (List (List (List Byte) × Nat))} {ro : Nat}
    (h : Spec.CountFiles U files ro) (hw : ∀ f ∈ files, f ≠ [] ∧ ∀ r ∈ f, ∀ w ∈ r.1, Spec.FileWord w)
    (hv : Mphf (List Byte) 64) (G : GramsSt) (R : RanksSt) :
    StCount.buildFiles L hv G R ro (files.map Spec.gramsText) = StCount.build L hv G R ro files := by
  have hgram := files_grams h hw
  unfold StCount.buildFiles
  have hread : Res.mapM readGrams (files.map Spec.gramsText) =
      some (.ok (files.map fun f => f.map fun r => (joinSp r.1, BitVec.ofNat 64 r.2))) :=
    Res.mapM_map_ok fun f hf => readGrams_text (hw f hf).1 (by have := TrieCount.len_of_size h hf; omega) (hw f hf).2
  rw [hread, Res.bind_ok]
  have hdata : (files.map fun f => f.map fun r => (joinSp r.1, BitVec.ofNat 64 r.2)).mapM
      (fun f => f.mapM fun r => (queryWords r.1).map fun ws => (ws, r.2.toNat)) = some files := by
    have hin : ∀ f ∈ files, (f.map fun r => (joinSp r.1, BitVec.ofNat 64 r.2)).mapM
        (fun r => (queryWords r.1).map fun ws => (ws, r.2.toNat)) = some f := by
      intro f hf
      have := mapM_map_ok (g := fun r : List (List Byte) × Nat => (joinSp r.1, BitVec.ofNat 64 r.2))
        (f := fun r => (queryWords r.1).map fun ws => (ws, r.2.toNat)) (h := id) (l := f) (by
          intro r hrf
          simp only
          rw [queryWords_ok (hgram f hf r hrf).1 (hgram f hf r hrf).2, Option.map_some, BitVec.toNat_ofNat,
            Nat.mod_eq_of_lt (Nat.lt_of_lt_of_le (h.counts f hf r hrf) (Nat.sub_le _ _))]
          rfl)
      rw [this, List.map_id]
    have := mapM_map_ok (h := id) hin
    rw [this, List.map_id]
  rw [hdata, Res.lift_some, Res.bind_ok]

theorem StCount.Sim.sizes {K : Type} {G : GramsSt} {R : RanksSt} {t : TrieCount K} {t' : StCount K G R} (h : t'.Sim t) :
    t'.arrs.map (·.size) = t.arrs.map (·.size) := by
  have hl := h.arrs.1
  apply List.ext_getElem?
  intro i
  rw [List.getElem?_map, List.getElem?_map]
  by_cases hi : i < t.arrs.length
  · obtain ⟨b, hb, hs⟩ := h.arrs.get (List.getElem?_eq_getElem hi)
    rw [hb, List.getElem?_eq_getElem hi, Option.map_some, Option.map_some, hs.size]
  · rw [List.getElem?_eq_none (by omega), List.getElem?_eq_none (by omega)]
    rfl

/-- The programs on a stateful trie that simulates the ideal one built from the files. -/
theorem CheckModel.st_programs {G' : GramsSt} {R' : RanksSt} {L : SortLib} {U : List (List Byte)} {files : List (List (List (List Byte) × Nat))} {ro : Nat}
    (h : Spec.CountFiles U files ro) (hw : ∀ f ∈ files, f ≠ [] ∧ ∀ r ∈ f, ∀ w ∈ r.1, Spec.FileWord w)
    {hv : Mphf (List Byte) 64} {I : GramsImpl} {J : RanksImpl} {t : TrieCount (List Byte)} (e : TrieCount.build L hv I J ro files = some (.ok t))
    {absent : List (List Byte) → Prop}
    (hans : ∀ p : List (List Byte) × Nat, ((∃ f ∈ files, p ∈ f) ∨ (p.2 = NF ∧ absent p.1)) → t.lookup p.1 = some p.2)
    {load : Rd (StCount (List Byte) G' R')} {binary : List Byte} {t2 : StCount (List Byte) G' R'}
    (hs2 : t2.Sim t) (hl : loadFile load binary = some (t2, binary.length)) :
    testCountModel StCount.use load binary (files.map Spec.gramsText) =
        some (.ok ⟨binary.length, (files.map List.length).sum, List.replicate files.length []⟩) ∧
      ∀ (qs : List (List Byte × List (List Byte) × Nat)) (runs : Nat), 0 < runs → (∀ q ∈ qs, Spec.TrieQuery absent files q) →
        perfTest StCount.use load binary (qs.map (·.1)) runs =
          some (.ok ⟨binary.length, (files.map List.length).sum, qs.length, List.replicate runs (qs.map (·.2.2))⟩) := by
  have hgram := files_grams h hw
  obtain ⟨z1, z2⟩ := TrieCount.build_sizes e
  have hlook : ∀ (gram : List (List Byte)) (a : Nat), gram ≠ [] → (∀ w ∈ gram, w ≠ [] ∧ sp ∉ w) → t.lookup gram = some a →
      (queryWords (joinSp gram)).bind t.lookup = some a := by
    intro gram a n1 n2 hl
    rw [queryWords_ok n1 n2, Option.bind_some, hl]
  have hprog := programs_ok (u := StCount.use) (P := fun x : StCount (List Byte) G' R' => x.Sim t) (L := fun q => (queryWords q).bind t.lookup) (by
    intro m hm q a hq
    obtain ⟨ws, q1, q2⟩ := Option.bind_eq_some_iff.1 hq
    obtain ⟨m', m1, m2⟩ := hm.lookup q2
    exact ⟨m', by show (queryWords q).bind m.lookup = _; rw [q1, Option.bind_some, m1], m2⟩) (text_of h hw) (by
      intro f hf r hr
      have := h.counts f hf r hr
      unfold NF; omega)
    (fun f hf r hr => hlook r.1 r.2 (hgram f hf r hr).1 (hgram f hf r hr).2 (hans r (.inl ⟨f, hf, hr⟩))) hl hs2
    (by show t2.order = _; rw [hs2.order, z1]) (size := (files.map List.length).sum) (by
      show (t2.arrs.map (·.size)).sum % 2 ^ 64 = _
      rw [hs2.sizes, z2, Nat.mod_eq_of_lt (Sizes.files_sum h)])
  refine ⟨hprog.1, fun qs runs hruns hq => hprog.2 qs runs hruns fun q hqm => ?_⟩
  obtain ⟨q1, q2⟩ := hq q hqm
  simp only [q1]
  rcases q2 with ⟨f, hf, hqf⟩ | ⟨q2, q3, q4, q5⟩
  · exact hlook _ _ (hgram f hf _ hqf).1 (hgram f hf _ hqf).2 (hans _ (.inl ⟨f, hf, hqf⟩))
  · exact hlook _ _ q4 q5 (hans _ (.inr ⟨q2, q3⟩))

/-- **C58** (count tries over `uniform_pef_sequence` grams, with any of the rank sequences): the same, with the absent queries that C49 covers, although every
lookup changes the model. -/
theorem C58_pef_count_trie {L : SortLib} (hL : L.Valid) {U : List (List Byte)} {files : List (List (List (List Byte) × Nat))} {ro : Nat}
    (h : Spec.CountFiles U files ro) (hp : Spec.PefFiles U files ro) (hw : ∀ f ∈ files, f ≠ [] ∧ ∀ r ∈ f, ∀ w ∈ r.1, Spec.FileWord w)
    {hv : Mphf (List Byte) 64} (hb : hv.BuiltFrom U) {c : Emphf (List Byte) 64} (hc : Spec.EmphfReads c hv)
    {junkU junkD junkU' junkD' : Nat → List W} (hu : ∀ k, junkU k ≠ []) (hj : ∀ k, junkD k ≠ []) (hu' : ∀ k, junkU' k ≠ []) (hj' : ∀ k, junkD' k ≠ [])
    (pr : PefRanks) (hpr : ∀ f ∈ files, f.length < pr.maxLines) {ji : ICSeq} {je jp : EF} (hji : ji.Fits) (hje : je.Fits) (hjp : jp.Fits) (header : Byte) :
    ∃ (t : StCount (List Byte) (GramsSt.pef junkU junkD) (pr.stored junkU junkD)) (binary : List Byte),
      StCount.buildFiles L hv _ _ ro (files.map Spec.gramsText) = some (.ok t) ∧
      saveFile header (t.save (GramsFile.pef junkU junkD) (pr.file junkU junkD ji je) jp c) = binary ∧
      testCountModel StCount.use (StCount.load (GramsFile.pef junkU' junkD') (pr.file junkU' junkD' ji je) c) binary (files.map Spec.gramsText) =
        some (.ok ⟨binary.length, (files.map List.length).sum, List.replicate files.length []⟩) ∧
      ∀ (qs : List (List Byte × List (List Byte) × Nat)) (runs : Nat), 0 < runs → (∀ q ∈ qs, Spec.TrieQuery (Spec.PefAbsent hv U files ro) files q) →
        perfTest StCount.use (StCount.load (GramsFile.pef junkU' junkD') (pr.file junkU' junkD' ji je) c) binary (qs.map (·.1)) runs =
          some (.ok ⟨binary.length, (files.map List.length).sum, qs.length, List.replicate runs (qs.map (·.2.2))⟩) := by
  have hsz : ∀ f ∈ files, f.length < 2 ^ 57 := fun f hf => by have := TrieCount.len_of_size h hf; omega
  obtain ⟨t, e, hg⟩ := TrieCount.build_ok hL (ex := PefTrie.ClearAt U (files.map (·.map (·.1))) ro) h.data h.order_min h.order_max h.remapping
    h.counts hsz hb (PefTrie.grams_exact h hp) (PefRanks.exact h pr hpr)
  have hG := GramsFile.pef_stores hu hj hu' hj'
  have hR := pr.stores hu hj hu' hj' hji hje
  obtain ⟨t', e', hs, hf⟩ := StCount.build_filed hG hR hjp hL h hb hc e
  obtain ⟨t2, e2, hs2, -⟩ := hf.load hs
  have := st_programs h hw e (fun p hpm => PefTrie.answer h hg hpm) hs2 (C36_file e2 header)
  exact ⟨t', _, by rw [StCount.buildFiles_eq L h hw]; exact e', rfl, this⟩

/-- **C58** (count tries over `fast_ef_sequence` grams with any of the rank sequences): the same, also for those that lookups change. -/
theorem C58_ef_count_trie {L : SortLib} (hL : L.Valid) {U : List (List Byte)} {files : List (List (List (List Byte) × Nat))} {ro : Nat}
    (h : Spec.CountFiles U files ro) (hw : ∀ f ∈ files, f ≠ [] ∧ ∀ r ∈ f, ∀ w ∈ r.1, Spec.FileWord w)
    {hv : Mphf (List Byte) 64} (hb : hv.BuiltFrom U) {c : Emphf (List Byte) 64} (hc : Spec.EmphfReads c hv) {hr : Nat → Mphf Nat 64}
    (hh : Spec.RangeHashes hr files)
    {c' : Emphf Nat 64} (hc' : ∀ k, Spec.EmphfReads c' (hr k)) {ju : UTable Nat 64} (hju : ju.Fits c') {jg : FastEF} (hjg : jg.Fits c')
    {junkU junkD junkU' junkD' : Nat → List W} (hu : ∀ k, junkU k ≠ []) (hj : ∀ k, junkD k ≠ []) (hu' : ∀ k, junkU' k ≠ []) (hj' : ∀ k, junkD' k ≠ [])
    (pr : PefRanks) (hpr : ∀ f ∈ files, f.length < pr.maxLines) {ji : ICSeq} {je jp : EF} (hji : ji.Fits) (hje : je.Fits) (hjp : jp.Fits) (header : Byte) :
    ∃ (t : StCount (List Byte) (GramsData.fastEF hr c' ju).st (pr.stored junkU junkD)) (binary : List Byte),
      StCount.buildFiles L hv _ _ ro (files.map Spec.gramsText) = some (.ok t) ∧
      saveFile header (t.save (GramsFile.data (GramsData.fastEF hr c' ju) jg) (pr.file junkU junkD ji je) jp c) = binary ∧
      testCountModel StCount.use (StCount.load (GramsFile.data (GramsData.fastEF hr c' ju) jg) (pr.file junkU' junkD' ji je) c) binary (files.map Spec.gramsText) =
        some (.ok ⟨binary.length, (files.map List.length).sum, List.replicate files.length []⟩) ∧
      ∀ (qs : List (List Byte × List (List Byte) × Nat)) (runs : Nat), 0 < runs → (∀ q ∈ qs, Spec.TrieQuery (Spec.EfAbsent hv U files ro) files q) →
        perfTest StCount.use (StCount.load (GramsFile.data (GramsData.fastEF hr c' ju) jg) (pr.file junkU' junkD' ji je) c) binary (qs.map (·.1)) runs =
          some (.ok ⟨binary.length, (files.map List.length).sum, qs.length, List.replicate runs (qs.map (·.2.2))⟩) := by
  have hsz : ∀ f ∈ files, f.length < 2 ^ 57 := fun f hf => by have := TrieCount.len_of_size h hf; omega
  obtain ⟨t, e, hg⟩ := TrieCount.build_ok hL (G := (GramsData.fastEF hr c' ju).limit) (ex := fun _ _ => True) h.data h.order_min h.order_max h.remapping
    h.counts hsz hb (fun k prev curr h1 h2 => by
      refine GramsData.limit_exact (fun d ed => ?_) (TrieCount.fastEF_levels h hh k prev curr h1 h2)
      obtain ⟨ptrs', q1, q2, -⟩ :=
        C38_pointers_delimit_children (pat := List.dropLast) (Trie.lex_irrefl U) (Trie.lex_trans U) (h.data.sorted k prev h1)
          (Trie.patterns_sorted (h.data.len _ curr h2) (h.data.words _ curr h2) (h.data.sorted _ curr h2)) (h.data.prefix_closed k prev curr h1 h2)
      rw [q2] at q1
      exact fastEF_level_fits h hh hc' hju k prev curr h1 h2 _ _ d q1 (by rw [List.length_map]) ed) (PefRanks.exact h pr hpr)
  have hans : ∀ p : List (List Byte) × Nat, ((∃ f ∈ files, p ∈ f) ∨ (p.2 = NF ∧ Spec.EfAbsent hv U files ro p.1)) → t.lookup p.1 = some p.2 := by
    rintro p (⟨f, hf, hpf⟩ | ⟨h1, h2, h3, h4, h5, h6, h7⟩)
    · exact TrieCount.lookup_present hg h.data h.remapping h.order_max hsz hf hpf
    · rw [h1]; exact TrieCount.absent_of_good h hg h2 h3 h4 h5 h6 h7 (fun _ _ _ _ _ _ _ => trivial) (fun _ _ _ _ _ _ => trivial)
  have hG := GramsFile.fastEF_stores (hr := hr) hju (junk := jg) (junk' := jg) hjg
  have hR := pr.stores hu hj hu' hj' hji hje
  obtain ⟨t', e', hs, hf⟩ := StCount.build_filed hG hR hjp hL h hb hc e
  obtain ⟨t2, e2, hs2, -⟩ := hf.load hs
  have := st_programs h hw e hans hs2 (C36_file e2 header)
  exact ⟨t', _, by rw [StCount.buildFiles_eq L h hw]; exact e', rfl, this⟩

/-! ## Concrete runs -/

namespace CheckExample
open FilesExample EndExample SaveExample

theorem not_stored_iff {g : List (List Byte)} : ¬ Spec.Stored MphCountExample.files g ↔ ∀ f ∈ MphCountExample.files, ∀ r ∈ f, r.1 ≠ g := by
  constructor
  · intro h f hf r hr e
    exact h ⟨f, hf, r.2, by rw [← e]; exact hr⟩
  · rintro h ⟨f, hf, c, hm⟩
    exact h f hf _ hm rfl

/-- `a a` is absent, but `a b` is not. -/
theorem absent : Spec.EfAbsent (TextExample.mphf3 U) U MphCountExample.files 0 [MphCountExample.w 0, MphCountExample.w 0] := by
  refine ⟨by simp, by decide, by rw [not_stored_iff]; decide, ?_, ?_, by simp⟩
  · intro w hw hn; simp [U] at hw hn; exact absurd hw hn.1
  · intro j h1 h2 _
    simp at h2
    obtain rfl : j = 1 := by omega
    exact ⟨MphCountExample.w 1, _, List.mem_of_getElem? (i := 1) rfl, 3, by simp⟩

/-- The file of queries: `a c`, a tab and more; `c`; `a a`. -/
def queries : List (List Byte × List (List Byte) × Nat) :=
  [(str "a c" ++ tab :: str "what follows", [MphCountExample.w 0, MphCountExample.w 2], 2), (str "c", [MphCountExample.w 2], 5),
    (str "a a", [MphCountExample.w 0, MphCountExample.w 0], NF)]

theorem queries_ok {absent : List (List Byte) → Prop} (ha : absent [MphCountExample.w 0, MphCountExample.w 0]) :
    ∀ q ∈ queries, Spec.TrieQuery absent MphCountExample.files q := by
  intro q hq
  simp only [queries, List.mem_cons, List.not_mem_nil, or_false] at hq
  rcases hq with rfl | rfl | rfl
  · exact ⟨by decide, .inl ⟨_, List.mem_of_getElem? (i := 1) rfl, by simp⟩⟩
  · exact ⟨by decide, .inl ⟨_, List.mem_of_getElem? (i := 0) rfl, by simp⟩⟩
  · exact ⟨by decide, .inr ⟨rfl, ha, by simp, by simp [MphCountExample.w, sp]⟩⟩

/-- The hypotheses of C58 are met by the count files of C44's example. -/
example : ∃ binary : List Byte,
    testCountModel (TrieCountStore.use [0#64]) (TrieCountStore.load (GramsData.fastEF (fun _ => FastEF.exMphf) codec junkTable) CountRanks.ic.data
      (codecOf [(TextExample.mphf3 U).hasher])) binary (MphCountExample.files.map Spec.gramsText) = some (.ok ⟨binary.length, 6, [[], []]⟩) ∧
    perfTest (TrieCountStore.use [0#64]) (TrieCountStore.load (GramsData.fastEF (fun _ => FastEF.exMphf) codec junkTable) CountRanks.ic.data
      (codecOf [(TextExample.mphf3 U).hasher])) binary [str "a c" ++ tab :: str "what follows", str "c", str "a a"] 2 =
      some (.ok ⟨binary.length, 6, 3, [[2, 5, NF], [2, 5, NF]]⟩) := by
  obtain ⟨s, binary, -, -, e1, e2⟩ := C58_count_trie exLib_valid files_trie files_words
    (TextExample.built3 (keys := U) rfl (by decide)) files_hashes .ic (by simp) voc_read ranges_read junk_fits
    (j := SaveExample.junk CountRanks.ic.data icJunk _) (fef_fits [1, 2] (by decide) (by decide))
    (by show ICSeq.Fits _; simp [SaveExample.junk, icJunk, ICSeq.Fits, BitVector.Fits, DArray.Fits, DArray.empty]) (junk_ptrs _ _ _) 7#8 [0#64]
  exact ⟨binary, e1, e2 queries 2 (by decide) (queries_ok absent)⟩

example : ∃ binary : List Byte,
    testCountModel MphCount.use (MphCount.load (codecOf [(MphCountExample.hs 0).hasher, (MphCountExample.hs 1).hasher, (MphCountExample.hs 2).hasher]))
      binary (MphCountExample.files.map Spec.gramsText) = some (.ok ⟨binary.length, 6, [[], []]⟩) := by
  obtain ⟨m, binary, -, -, e1, e2⟩ := C58_hash_count exLib_valid (extra := 0) MphCountExample.files_ok (fun f hf => (files_words f hf).2) (.inl rfl) (by decide)
    MphCountExample.hs_built hs_read 7#8
  exact ⟨binary, e1⟩

theorem files_pef : Spec.PefFiles U MphCountExample.files 0 where
  span := by simp [MphCountExample.files, U]
  nonzero := by
    intro k f h _ _
    rcases k with _ | k <;> simp [MphCountExample.files] at h <;> subst h <;> decide

/-- Sequences that keep a position: 2 runs of the same queries. -/
example : ∃ binary : List Byte,
    testCountModel StCount.use (StCount.load (GramsFile.pef (fun _ => [1, 5]) fun _ => [3]) ((PefRanks.pspef true).file (fun _ => [1, 5]) (fun _ => [3])
      icJunk ptrs) (codecOf [(TextExample.mphf3 U).hasher])) binary (MphCountExample.files.map Spec.gramsText) = some (.ok ⟨binary.length, 6, [[], []]⟩) ∧
    perfTest StCount.use (StCount.load (GramsFile.pef (fun _ => [1, 5]) fun _ => [3]) ((PefRanks.pspef true).file (fun _ => [1, 5]) (fun _ => [3])
      icJunk ptrs) (codecOf [(TextExample.mphf3 U).hasher])) binary [str "a c" ++ tab :: str "what follows", str "c"] 2 =
      some (.ok ⟨binary.length, 6, 2, [[2, 5], [2, 5]]⟩) := by
  obtain ⟨s, binary, -, -, e1, e2⟩ := C58_pef_count_trie exLib_valid files_trie files_pef files_words
    (TextExample.built3 (keys := U) rfl (by decide)) voc_read (junkU := fun _ => [7]) (junkD := fun _ => [9]) (junkU' := fun _ => [1, 5]) (junkD' := fun _ => [3])
    (by simp) (by simp) (by simp) (by simp) (.pspef true) (by simp [MphCountExample.files, PefRanks.maxLines]) (ji := icJunk) (je := ptrs) (jp := ptrs)
    (by simp [icJunk, ICSeq.Fits, BitVector.Fits, DArray.Fits, DArray.empty]) ptrs_fits ptrs_fits 7#8
  refine ⟨binary, e1, e2 (queries.take 2) 2 (by decide) fun q hq => ?_⟩
  obtain ⟨h1, h2⟩ := queries_ok (absent := fun _ => True) trivial q (List.mem_of_mem_take hq)
  simp only [queries, List.take_succ_cons, List.take_zero, List.mem_cons, List.not_mem_nil, or_false] at hq
  rcases hq with rfl | rfl
  · exact ⟨h1, .inl ⟨_, List.mem_of_getElem? (i := 1) rfl, by simp⟩⟩
  · exact ⟨h1, .inl ⟨_, List.mem_of_getElem? (i := 0) rfl, by simp⟩⟩

example := C58_ef_count_trie exLib_valid files_trie files_words (TextExample.built3 (keys := U) rfl (by decide)) voc_read files_hashes ranges_read junk_fits
  (fef_fits [1, 2] (by decide) (by decide)) (junkU := fun _ => [7]) (junkD := fun _ => [9]) (junkU' := fun _ => [1, 5]) (junkD' := fun _ => [3])
  (by simp) (by simp) (by simp) (by simp) (.pspef false) (by simp [MphCountExample.files, PefRanks.maxLines]) (ji := icJunk) (je := ptrs) (jp := ptrs)
  (by simp [icJunk, ICSeq.Fits, BitVector.Fits, DArray.Fits, DArray.empty]) ptrs_fits ptrs_fits 7#8

/-- A model that is its list of lines; it is loaded from a file without bytes after the header. -/
def listUse : CountUse (List (List Byte × Nat)) where
  order _ := 1
  size m := m.length
  look m q := some (match m.find? (·.1 == q) with | some r => r.2 | none => NF, m)

/-- A model without the second n-gram of the text file is reported with the number of the line; one with a wrong count ends the program. -/
example : testCountModel listUse (Rd.ret [(str "a", 5), (str "c", 5)]) [7#8] [str "3" ++ nl :: str "a" ++ tab :: str "5" ++ nl :: str "b" ++ tab :: str "7" ++
      nl :: str "c" ++ tab :: str "5" ++ [nl]] = some (.ok ⟨1, 2, [[1]]⟩) ∧
    testCountModel listUse (Rd.ret [(str "a", 5), (str "c", 6)]) [7#8] [str "3" ++ nl :: str "a" ++ tab :: str "5" ++ nl :: str "b" ++ tab :: str "7" ++
      nl :: str "c" ++ tab :: str "5" ++ [nl]] = some (.error ()) := by decide +kernel

/-- No runs is an error; queries without a tab are the whole line. -/
example : perfTest listUse (Rd.ret [(str "a", 5), (str "c", 5)]) [7#8] [str "c"] 0 = some (.error ()) ∧
    perfTest listUse (Rd.ret [(str "a b", 5), (str "c", 6)]) [7#8] [str "c", [], str "a b" ++ [tab]] 1 = some (.ok ⟨1, 2, 3, [[6, NF, 5]]⟩) := by decide +kernel

end CheckExample

end Tongrams
