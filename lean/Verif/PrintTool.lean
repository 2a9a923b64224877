import Verif.Tools
import Verif.PefStats
import Verif.PefSizes

/-!
# The program `print_stats`

More of property C69: `print_stats` run on a file that `build_trie` or `build_hash` wrote.
-/

set_option linter.unusedSectionVars false

namespace Tongrams
open CheckModel Stats Sizes

/-- What `print_stats` prints: for a trie the numbers of n-grams, ranges and gaps, and the numbers of bytes; for a hash model the numbers of bytes. -/
inductive Shown (N : Type) where
  | countTrie (numbers : Printed N) (sizes : TriePrinted N)
  | backoffTrie (numbers : Printed N) (sizes : ProbPrinted N)
  | hash (sizes : HashPrinted N)

section
variable {F : Type} [FloatArith F] {N : Type} [Add N] [Mul N] [Div N] [NatCast N]

/-- `print_stats<T>` (src/print_stats.cpp:11-17) for each class: `util::load`, whose result is the number of bytes, and `T::print_stats`
(stats.cpp:13-100, 301-432).  `log2` and the order in which an `unordered_map` is enumerated are from outside. -/
def ToolEnv.showAs (E : ToolEnv F) (log2 : N → N) (iter : List (Nat × Nat) → List (Nat × Nat)) (binary : List Byte) : ModelT → Option (Shown N)
  | .trieCount m r .fastEF =>
    (loadFile (StCount.loadAs m (GramsFile.data E.efGrams E.jg) ((r.ranks E.swap).file E.junkU' E.junkD' E.ji E.je) E.c) binary).bind fun p =>
      (p.1.printStats Scanner.fastEF (fun o : Option FastEF => o) log2 iter).map fun x =>
        .countTrie x (p.1.printSizes (GramsMeasure.fastEF E.hr E.c' E.ju).bytes (pefRanks E.junkU' E.junkD' (r.ranks E.swap)) p.2)
  | .trieCount m r .uniformPEF =>
    (loadFile (StCount.loadAs m (GramsFile.pef E.junkU' E.junkD') ((r.ranks E.swap).file E.junkU' E.junkD' E.ji E.je) E.c) binary).bind fun p =>
      (p.1.printStats Scanner.pef (Option.map PefObj.scanned) log2 iter).map fun x =>
        .countTrie x (p.1.printSizes (GramsMeasure.pef E.junkU' E.junkD').bytes (pefRanks E.junkU' E.junkD' (r.ranks E.swap)) p.2)
  | .trieProb m .fastEF =>
    (loadFile (TrieProbStore.loadAs (G := E.efGrams) (R := RanksData.cv) m E.fb E.c) binary).bind fun p =>
      (p.1.printStats log2 iter).map fun x => .backoffTrie x (p.1.printSizes RankBytes.cv p.2)
  | .trieProb m .uniformPEF =>
    (loadFile (StProb.loadAs m (GramsFile.pef E.junkU' E.junkD') (RanksFile.data RanksData.cv E.junk' E.jr) E.fb E.c) binary).bind fun p =>
      (p.1.printStats Scanner.pef (Option.map PefObj.scanned) log2 iter).map fun x =>
        .backoffTrie x (p.1.printSizes (GramsMeasure.pef E.junkU' E.junkD').bytes (ranksOf RankBytes.cv E.junk') p.2)
  | .mphCount b =>
    if b = 32 then (loadFile (MphCount.load E.c32) binary).map fun p => .hash (p.1.printSizes p.2)
    else if b = 64 then (loadFile (MphCount.load E.c64) binary).map fun p => .hash (p.1.printSizes p.2)
    else none
  | .mphProb b =>
    if b = 32 then (loadFile (MphProb.load E.fb E.c32) binary).map fun p => .hash (p.1.printSizes p.2)
    else if b = 64 then (loadFile (MphProb.load E.fb E.c64) binary).map fun p => .hash (p.1.printSizes p.2)
    else none

/-- `print_stats index_filename` (src/print_stats.cpp:19-41). -/
def printStatsMain (E : ToolEnv F) (log2 : N → N) (iter : List (Nat × Nat) → List (Nat × Nat)) (binary : List Byte) : Res (Option (Shown N)) :=
  Res.bind (fileType allTypes binary) fun
  | none => some (.ok none)
  | some t => Res.bind (Res.lift (E.showAs log2 iter binary t)) fun r => some (.ok (some r))

/-- Specification: the total printed is the size of the file, the average per n-gram and the shares of the parts are of this total, and of the number
of n-grams of the input. -/
structure Spec.SharesOf (binary : List Byte) (grams : Nat) (total : Nat) (perGram : N) (parts : List (Share N)) : Prop where
  total : total = binary.length
  perGram : perGram = (binary.length : N) / (grams : N)
  parts : ∀ p ∈ parts, Spec.ShareOf binary.length grams p

/-! ## Proofs -/

namespace Tools

theorem shown (E : ToolEnv F) (log2 : N → N) (iter : List (Nat × Nat) → List (Nat × Nat)) {header : Byte} {body : List Byte} {t : ModelT} {r : Shown N}
    (h1 : loadChoice allTypes header = some (some t)) (h2 : E.showAs log2 iter (saveFile header body) t = some r) :
    printStatsMain E log2 iter (saveFile header body) = some (.ok (some r)) := by
  unfold printStatsMain
  rw [fileType_saved, h1, Res.lift_some, Res.bind_ok]
  simp only
  rw [h2, Res.lift_some, Res.bind_ok]

/-- What `build_trie … count` writes is the trie of the arguments' class. -/
theorem count_written (E : ToolEnv F) (a : TrieCommand F) (ha : Spec.ValidTrieArgs a.choice) (hv : a.choice.value = "count")
    (hun : ∀ u ∈ a.unk, u < 0) {files : List (List (List (List Byte) × Nat))} (ho : a.order = files.length) (h1 : 2 ≤ files.length) (h2 : files.length ≤ 8)
    {folder : List (List Byte)} (hf : folder.take files.length = files.map Spec.gramsText) {arpa : Option (List Byte)} {header : Byte} {t : ModelT}
    (e : buildTrieChoice a.choice = some (.ok (header, some t))) {body binary : List Byte}
    (hb : E.countBody (Spec.remapping a.choice) (files.map Spec.gramsText) t = some (.ok body))
    (hbin : buildTrie E a folder arpa = some (.ok (some binary))) : binary = saveFile header body := by
  obtain ⟨r1, r2, r3⟩ := type_ro a.choice ha
  have hlen0 : files.length ≤ folder.length := by
    have := congrArg List.length hf
    rw [List.length_take, List.length_map] at this
    omega
  unfold buildTrie at hbin
  rw [ho, checkOrder_ok h1 h2, Res.bind_ok, checkUnk_ok hun, Res.bind_ok, e, Res.bind_ok, hv, r2, Nat.mod_eq_of_lt (by omega)] at hbin
  unfold ToolEnv.writeFile at hbin
  simp only [beq_self_eq_true, if_true] at hbin
  unfold gramsFiles at hbin
  rw [if_neg (by omega), hf, Res.bind_ok, hb, Res.bind_ok] at hbin
  exact (Option.some.inj (Except.ok.inj (Option.some.inj hbin))).symm

/-- What `build_trie … prob_backoff` writes is the trie of the arguments' class. -/
theorem prob_written (E : ToolEnv F) (a : TrieCommand F) (ha : Spec.ValidTrieArgs a.choice) (hv : a.choice.value = "prob_backoff")
    (hun : ∀ u ∈ a.unk, u < 0) {order : Nat} (ho : a.order = order) (h1 : 2 ≤ order) (h2 : order ≤ 8) {pb bb : Nat} (hpb : pb = a.p.getD 8) (hbb : bb = a.b.getD 8)
    (h3 : pb < 256) (h4 : bb < 256)
    {folder : List (List Byte)} {arpa : List Byte} {header : Byte} {t : ModelT} (e : buildTrieChoice a.choice = some (.ok (header, some t)))
    {body binary : List Byte} (hb : E.probBody (Spec.remapping a.choice) order (a.unk.getD E.defaultUnk) pb bb arpa t = some (.ok body))
    (hbin : buildTrie E a folder (some arpa) = some (.ok (some binary))) : binary = saveFile header body := by
  obtain ⟨r1, r2, r3⟩ := type_ro a.choice ha
  have hvc : a.choice.value ≠ "count" := by rw [hv]; decide
  unfold buildTrie at hbin
  rw [ho, checkOrder_ok h1 h2, Res.bind_ok, checkUnk_ok hun, Res.bind_ok, e, Res.bind_ok, r2, Nat.mod_eq_of_lt (a := order) (by omega), ← hpb, ← hbb,
    Nat.mod_eq_of_lt h3, Nat.mod_eq_of_lt h4] at hbin
  unfold ToolEnv.writeFile at hbin
  simp only [beq_eq_false_iff_ne.2 hvc, Bool.false_eq_true, if_false] at hbin
  rw [Res.lift_some, Res.bind_ok, hb, Res.bind_ok] at hbin
  exact (Option.some.inj (Except.ok.inj (Option.some.inj hbin))).symm

/-- What `build_hash … count` writes. -/
theorem hash_count_written (E : ToolEnv F) (a : HashCommand F) (hv : a.choice.value = "count")
    (hun : ∀ u ∈ a.unk, u < 0) {files : List (List (List (List Byte) × Nat))} (ho : a.order = files.length) (h1 : 2 ≤ files.length) (h2 : files.length ≤ 8)
    {folder : List (List Byte)} (hf : folder.take files.length = files.map Spec.gramsText) {arpa : Option (List Byte)} {header : Byte} {t : ModelT}
    (e : buildHashChoice a.choice = some (.ok (header, some t))) {body binary : List Byte}
    (hb : E.countBody 0 (files.map Spec.gramsText) t = some (.ok body))
    (hbin : buildHash E a folder arpa = some (.ok (some binary))) : binary = saveFile header body := by
  have hlen0 : files.length ≤ folder.length := by
    have := congrArg List.length hf
    rw [List.length_take, List.length_map] at this
    omega
  unfold buildHash at hbin
  rw [ho, checkOrder_ok h1 h2, Res.bind_ok, checkUnk_ok hun, Res.bind_ok, e, Res.bind_ok, hv, Nat.mod_eq_of_lt (by omega)] at hbin
  unfold ToolEnv.writeFile at hbin
  simp only [beq_self_eq_true, if_true] at hbin
  unfold gramsFiles at hbin
  rw [if_neg (by omega), hf, Res.bind_ok, hb, Res.bind_ok] at hbin
  exact (Option.some.inj (Except.ok.inj (Option.some.inj hbin))).symm

/-- What `build_hash … prob_backoff` writes. -/
theorem hash_prob_written (E : ToolEnv F) (a : HashCommand F) (hv : a.choice.value = "prob_backoff")
    (hun : ∀ u ∈ a.unk, u < 0) {order : Nat} (ho : a.order = order) (h1 : 2 ≤ order) (h2 : order ≤ 8) {pb bb : Nat} (hpb : pb = a.p.getD 8) (hbb : bb = a.b.getD 8)
    (h3 : pb < 256) (h4 : bb < 256)
    {folder : List (List Byte)} {arpa : List Byte} {header : Byte} {t : ModelT} (e : buildHashChoice a.choice = some (.ok (header, some t)))
    {body binary : List Byte} (hb : E.probBody 0 order (a.unk.getD E.defaultUnk) pb bb arpa t = some (.ok body))
    (hbin : buildHash E a folder (some arpa) = some (.ok (some binary))) : binary = saveFile header body := by
  have hvc : a.choice.value ≠ "count" := by rw [hv]; decide
  unfold buildHash at hbin
  rw [ho, checkOrder_ok h1 h2, Res.bind_ok, checkUnk_ok hun, Res.bind_ok, e, Res.bind_ok, Nat.mod_eq_of_lt (a := order) (by omega), ← hpb, ← hbb,
    Nat.mod_eq_of_lt h3, Nat.mod_eq_of_lt h4] at hbin
  unfold ToolEnv.writeFile at hbin
  simp only [beq_eq_false_iff_ne.2 hvc, Bool.false_eq_true, if_false] at hbin
  rw [Res.lift_some, Res.bind_ok, hb, Res.bind_ok] at hbin
  exact (Option.some.inj (Except.ok.inj (Option.some.inj hbin))).symm

/-- The file of a count trie, read with the mapper of its class. -/
theorem count_loadAs {G : GramsSt} {R : RanksSt} {G' : GramsSt} {R' : RanksSt} {Fg : GramsFile G} {Fr : RanksFile R} {Fg' : GramsFile G'} {Fr' : RanksFile R'}
    {m : MapperT} {ro : Nat} (r1 : m.applied ro = ro)
    (r3 : ro < 256) {c : Emphf (List Byte) 64} {jp : EF} {t : StCount (List Byte) G R} (hs : t.ro = ro) {header : Byte} {t2 : StCount (List Byte) G' R'} {n : Nat}
    (e : loadFile (StCount.load Fg' Fr' c) (saveFile header (t.save Fg Fr jp c)) = some (t2, n)) :
    loadFile (StCount.loadAs m Fg' Fr' c) (saveFile header (t.save Fg Fr jp c)) = some (t2, n) := by
  unfold StCount.loadAs
  rw [loadFile_as, e, Option.map_some]
  obtain ⟨_, e'⟩ := loadFile_saved e
  have hr2 : t2.ro = ro := by rw [← hs]; exact count_ro (by rw [hs]; exact r3) e'
  simp only [hr2, r1]
  rw [← hr2]

end Tools

open Tools in
/-- **C69** (`print_stats` on count tries): the file that `build_trie … count` writes is accepted by `print_stats`, which prints the numbers of the input
files: for each order the n-grams, ranges and gaps, the number of distinct counts (C53), and the size of the file and its shares. -/
theorem C69_print_stats_count_trie (log2 : N → N) {iter : List (Nat × Nat) → List (Nat × Nat)} (hiter : ∀ m, (iter m).Perm m)
    (E : ToolEnv F) (hE : Spec.ToolEnvOk E) (hjp : E.jp.size = 0) (a : TrieCommand F) (ha : Spec.ValidTrieArgs a.choice) (hv : a.choice.value = "count")
    (hun : ∀ u ∈ a.unk, u < 0) {U : List (List Byte)} {files : List (List (List (List Byte) × Nat))} (ho : a.order = files.length)
    (h : Spec.CountFiles U files (Spec.remapping a.choice)) (hp : a.choice.dataStructure = "pef_trie" → Spec.PefFiles U files (Spec.remapping a.choice))
    (hw : ∀ f ∈ files, f ≠ [] ∧ ∀ r ∈ f, ∀ w ∈ r.1, Spec.FileWord w) (hlen : ∀ f ∈ files, f.length < Spec.maxLines a.choice)
    (hb : E.hv.BuiltFrom U) (hh : Spec.RangeHashes E.hr files)
    {folder : List (List Byte)} (hf : folder.take files.length = files.map Spec.gramsText) {arpa : Option (List Byte)} {binary : List Byte}
    (hbin : buildTrie E a folder arpa = some (.ok (some binary))) :
    ∃ (x : Printed N) (p : TriePrinted N), printStatsMain E log2 iter binary = some (.ok (some (.countTrie x p))) ∧
      Spec.TrieNumbers log2 U (files.map (·.map (·.1))) (Spec.remapping a.choice) (files.map fun f => (f.map (·.2)).dedup.length) x ∧
      Spec.SharesOf binary (files.map List.length).sum p.total p.perGram [p.grams, p.ranks, p.ptrs] := by
  obtain ⟨header, c1, c2, -⟩ := C35_trie_header a.choice ha
  obtain ⟨r1, r2, r3⟩ := type_ro a.choice ha
  generalize hro : Spec.remapping a.choice = ro at *
  have hord := h.order_min
  have hord' := h.order_max
  generalize hm : (if a.choice.remapping.getD 0 = 0 then MapperT.identity else .sortedArray) = m at *
  obtain ⟨r, hr⟩ : ∃ r, r = (match a.choice.ranks with
    | some r => if r = "PSEF" then RanksT.PSEF else if r = "PSPEF" then .PSPEF else .IC
    | none => .IC : RanksT) := ⟨_, rfl⟩
  have hmax : ∀ f ∈ files, f.length < (r.ranks E.swap).maxLines := by
    intro f hf'
    have h1 := hlen f hf'
    have h2 : Spec.maxLines a.choice = (r.ranks E.swap).maxLines := by
      subst hr
      unfold Spec.maxLines
      cases e : a.choice.ranks with
      | none => simp [RanksT.ranks, PefRanks.maxLines]
      | some r =>
        rcases ha.ranks r e with rfl | rfl | rfl <;> simp [RanksT.ranks, PefRanks.maxLines]
    omega
  rcases ha.dataStructure with hd | hd
  · have ht : Spec.trieType a.choice = .trieCount m r .fastEF := by
      unfold Spec.trieType
      rw [if_pos hv, if_pos hd, hm, hr]
      rfl
    rw [ht] at c1 c2
    obtain ⟨t, d1, -, d2⟩ := C53_ef_count_trie log2 hiter hE.sort h hb hE.c hh hE.c' hE.ju hE.jg hE.junkU hE.junkD hE.junkU' hE.junkD'
      (r.ranks E.swap) hmax hE.ji hE.je hE.jp hjp header
    obtain ⟨t1, d3, -, t2, d4, ⟨x, d5, d6⟩, -⟩ := d2 [] (by simp)
    obtain ⟨-, e⟩ := Prod.mk.inj (Option.some.inj d3)
    subst e
    obtain ⟨t', f1, f2⟩ := C54_ef_count_trie (N := N) hE.sort h hb hE.c hh hE.c' hE.ju hE.jg hE.junkU hE.junkD hE.junkU' hE.junkD'
      (r.ranks E.swap) hmax hE.ji hE.je hE.jp header
    obtain rfl : t = t' := by rw [d1] at f1; exact Except.ok.inj (Option.some.inj f1)
    obtain ⟨t1', f3, t2', n, f4, f5, p, f6, f7, -⟩ := f2 [] (by simp)
    obtain ⟨-, e⟩ := Prod.mk.inj (Option.some.inj f3)
    subst e
    obtain ⟨rfl, -⟩ := Prod.mk.inj (Option.some.inj (d4.symm.trans f4))
    have hb1 : StCount.buildFiles E.L E.hv _ _ ro (files.map Spec.gramsText) = some (.ok t) := by
      rw [StCount.buildFiles_eq E.L h hw]; exact d1
    have hs := count_built_ro hb1
    have hbody : E.countBody ro (files.map Spec.gramsText) (.trieCount m r .fastEF) = some (.ok (t.save (GramsFile.data E.efGrams E.jg)
        ((r.ranks E.swap).file E.junkU E.junkD E.ji E.je) E.jp E.c)) := by
      unfold ToolEnv.countBody
      simp only
      rw [r1, hb1, Res.bind_ok, ← hs]
    have hfile := count_written E a ha hv hun ho hord hord' hf c1 (hro.symm ▸ hbody) hbin
    subst hfile
    have hl := count_loadAs (Fg' := GramsFile.data E.efGrams E.jg) (m := m) r1 r3 hs d4
    refine ⟨x, p, shown E log2 iter c2 ?_, d6, ⟨f7.total.trans f5, ?_, ?_⟩⟩
    · unfold ToolEnv.showAs
      simp only
      rw [hl, Option.bind_some]
      simp only
      rw [d5, Option.map_some, ← f5, f6]
    · rw [← f5]; exact f7.shares.2.2.2
    · intro q hq
      rw [← f5]
      simp only [List.mem_cons, List.not_mem_nil, or_false] at hq
      rcases hq with rfl | rfl | rfl
      · exact f7.shares.1
      · exact f7.shares.2.1
      · exact f7.shares.2.2.1
  · have hd' : a.choice.dataStructure ≠ "ef_trie" := by rw [hd]; decide
    have ht : Spec.trieType a.choice = .trieCount m r .uniformPEF := by
      unfold Spec.trieType
      rw [if_pos hv, if_neg hd', hm, hr]
      rfl
    rw [ht] at c1 c2
    obtain ⟨t, d1, -, d2⟩ := C53_pef_count_trie log2 hiter hE.sort h (hp hd) hb hE.c hE.junkU hE.junkD hE.junkU' hE.junkD'
      (r.ranks E.swap) hmax hE.ji hE.je hE.jp hjp header
    obtain ⟨t1, d3, -, t2, d4, ⟨x, d5, d6⟩, -⟩ := d2 [] (by simp)
    obtain ⟨-, e⟩ := Prod.mk.inj (Option.some.inj d3)
    subst e
    obtain ⟨t', f1, f2⟩ := C54_pef_count_trie (N := N) hE.sort h (hp hd) hb hE.c hE.junkU hE.junkD hE.junkU' hE.junkD'
      (r.ranks E.swap) hmax hE.ji hE.je hE.jp header
    obtain rfl : t = t' := by rw [d1] at f1; exact Except.ok.inj (Option.some.inj f1)
    obtain ⟨t1', f3, t2', n, f4, f5, p, f6, f7, -⟩ := f2 [] (by simp)
    obtain ⟨-, e⟩ := Prod.mk.inj (Option.some.inj f3)
    subst e
    obtain ⟨rfl, -⟩ := Prod.mk.inj (Option.some.inj (d4.symm.trans f4))
    have hb1 : StCount.buildFiles E.L E.hv _ _ ro (files.map Spec.gramsText) = some (.ok t) := by
      rw [StCount.buildFiles_eq E.L h hw]; exact d1
    have hs := count_built_ro hb1
    have hbody : E.countBody ro (files.map Spec.gramsText) (.trieCount m r .uniformPEF) = some (.ok (t.save (GramsFile.pef E.junkU E.junkD)
        ((r.ranks E.swap).file E.junkU E.junkD E.ji E.je) E.jp E.c)) := by
      unfold ToolEnv.countBody
      simp only
      rw [r1, hb1, Res.bind_ok, ← hs]
    have hfile := count_written E a ha hv hun ho hord hord' hf c1 (hro.symm ▸ hbody) hbin
    subst hfile
    have hl := count_loadAs (Fg' := GramsFile.pef E.junkU' E.junkD') (m := m) r1 r3 hs d4
    refine ⟨x, p, shown E log2 iter c2 ?_, d6, ⟨f7.total.trans f5, ?_, ?_⟩⟩
    · unfold ToolEnv.showAs
      simp only
      rw [hl, Option.bind_some]
      simp only
      rw [d5, Option.map_some, ← f5, f6]
    · rw [← f5]; exact f7.shares.2.2.2
    · intro q hq
      rw [← f5]
      simp only [List.mem_cons, List.not_mem_nil, or_false] at hq
      rcases hq with rfl | rfl | rfl
      · exact f7.shares.1
      · exact f7.shares.2.1
      · exact f7.shares.2.2.1

theorem Tools.no_session {G : GramsSt} {R : RanksSt} {fb : FloatBits F} {t t1 : StProb (List Byte) F G R} {d : Nat} {one : F} {scores : List (Option (F × Bool))}
    (h : t.session fb d one 0 [] = some (scores, t1)) : t1 = t := by
  unfold StProb.session at h
  obtain ⟨r, f1, f2⟩ := Option.map_eq_some_iff.1 h
  obtain ⟨q, f3, f4⟩ := Option.bind_eq_some_iff.1 f1
  unfold StScorer.session at f4
  obtain ⟨x, -, f5⟩ := Option.map_eq_some_iff.1 f3
  have e4 := Option.some.inj f4
  have e2 := (Prod.mk.inj f2).2
  rw [← e2, ← e4, ← f5]

open Tools in
/-- **C69** (`print_stats` on backoff tries). -/
theorem C69_print_stats_backoff_trie (log2 : N → N) {iter : List (Nat × Nat) → List (Nat × Nat)} (hiter : ∀ m, (iter m).Perm m)
    (E : ToolEnv F) (hE : Spec.ToolEnvOk E) (hjp : E.jp.size = 0) (hsort : ∀ l, (E.sort l).Perm l ∧ (E.sort l).Pairwise (· ≤ ·))
    (a : TrieCommand F) (ha : Spec.ValidTrieArgs a.choice) (hv : a.choice.value = "prob_backoff")
    (hun : ∀ u ∈ a.unk, u < 0) (lead gap : Nat) {sections : List (List (Spec.ArpaLine F) × Nat)} {tail : List Byte} (ho : a.order = sections.length)
    (hg : Spec.GoodArpa E.strtod sections tail)
    {U : List (List Byte)} {data : List (List (List (List Byte) × F × F))} {pb bb : Nat} (hpb : pb = a.p.getD 8) (hbb : bb = a.b.getD 8)
    (hd : Spec.ArpaLists sections data) (hwords : ∀ f ∈ data, ∀ r ∈ f, ∀ w ∈ r.1, w ≠ [] ∧ sp ∉ w)
    (h : Spec.ProbFiles U data (Spec.remapping a.choice))
    (hp : a.choice.dataStructure = "pef_trie" → Spec.PefFiles U (TrieProb.asCounts data) (Spec.remapping a.choice))
    (hq : Spec.Quantisable data pb bb) (hbits : pb + bb ≤ 58)
    (hfb : ∀ f0, data[0]? = some f0 → ∀ r ∈ f0, E.fb.dec (E.fb.enc r.2.1) = r.2.1 ∧ E.fb.dec (E.fb.enc r.2.2) = r.2.2)
    (hcb : ∀ ps bs, Quant.codebooks E.sort E.negInf pb bb data = some (.ok (ps, bs)) → ∀ l ∈ ps ++ bs, ∀ x ∈ l, Spec.IsFloat E.fb x)
    (hunk : Spec.IsFloat E.fb (Spec.unkProb Spec.unkText E.defaultUnk (data.getD 0 []) (a.unk.getD E.defaultUnk)))
    (hb : E.hv.BuiltFrom U) (hh : Spec.RangeHashes E.hr (TrieProb.asCounts data)) {folder : List (List Byte)} {binary : List Byte}
    (hbin : buildTrie E a folder (some (Spec.arpaText lead gap sections tail)) = some (.ok (some binary))) :
    ∃ (x : Printed N) (p : ProbPrinted N), printStatsMain E log2 iter binary = some (.ok (some (.backoffTrie x p))) ∧
      Spec.TrieNumbers log2 U (data.map (·.map (·.1.reverse))) (Spec.remapping a.choice) [] x ∧
      Spec.SharesOf binary (data.map List.length).sum p.total p.perGram [p.grams, p.ranks, p.ptrs] := by
  obtain ⟨header, c1, c2, -⟩ := C35_trie_header a.choice ha
  obtain ⟨r1, r2, r3⟩ := type_ro a.choice ha
  generalize hro : Spec.remapping a.choice = ro at *
  have hord := h.arpa.order_min
  have hord' := h.arpa.order_max
  have hls : sections.length = data.length := by
    have := congrArg List.length hd
    unfold Spec.lines at this
    rw [List.length_map, List.length_map] at this
    exact this
  have hvc : a.choice.value ≠ "count" := by rw [hv]; decide
  generalize hm : (if a.choice.remapping.getD 0 = 0 then MapperT.identity else .sortedArray) = m at *
  have hq1 := hq.probs.2
  have hq2 := hq.backoffs.2
  rw [← unkBytes_eq] at hunk
  rcases ha.dataStructure with hds | hds
  · have ht : Spec.trieType a.choice = .trieProb m .fastEF := by
      unfold Spec.trieType
      rw [if_neg hvc, if_pos hds, hm]
    rw [ht] at c1 c2
    obtain ⟨s, s', d1, d2, -, -, -, x, d5, d6⟩ := C53_backoff_trie log2 hiter E.fb hsort E.negInf unkBytes E.defaultUnk (a.unk.getD E.defaultUnk) h hq hbits hcb hunk hb hh
      hE.c hE.c' hE.ju (j := ⟨E.jg, E.jr, E.jp⟩) hE.jg hE.jr hE.jp hjp header
    obtain ⟨t', s2, f1, n, f2, f3, p, f4, f5, f6⟩ := C54_backoff_trie (F := N) E.fb hsort E.negInf unkBytes E.defaultUnk (a.unk.getD E.defaultUnk) h hq hbits hcb hunk hb hh
      hE.c hE.c' hE.ju (j := ⟨E.jg, E.jr, E.jp⟩) hE.jg hE.jr hE.jp header
    obtain rfl : s = t' := by rw [d1] at f1; exact Except.ok.inj (Option.some.inj f1)
    obtain ⟨rfl, -⟩ := Prod.mk.inj (Option.some.inj (d2.symm.trans f2))
    have hb1 : TrieProbStore.buildArpa E.strtod E.fb E.sort E.negInf E.defaultUnk E.hv E.efGrams RanksData.cv ro (a.unk.getD E.defaultUnk) pb bb sections.length
        (Spec.arpaText lead gap sections tail) = some (.ok s) := by
      rw [TrieProbStore.buildArpa_eq lead gap hg E.fb E.sort E.negInf E.defaultUnk _ ro pb bb hd hwords h.arpa]; exact d1
    have hs := store_built_ro hb1
    have hbody : E.probBody ro sections.length (a.unk.getD E.defaultUnk) pb bb (Spec.arpaText lead gap sections tail) (.trieProb m .fastEF) =
        some (.ok (s.save E.fb E.c ⟨E.jg, E.jr, E.jp⟩ bb)) := by
      unfold ToolEnv.probBody
      simp only
      rw [r1, hb1, Res.bind_ok, ← hs]
    have hfile := prob_written E a ha hv hun ho (by omega) (by omega) hpb hbb (by omega) (by omega) c1 (hro.symm ▸ hbody) hbin
    subst hfile
    have hl : loadFile (TrieProbStore.loadAs (G := E.efGrams) (R := RanksData.cv) m E.fb E.c) (saveFile header (s.save E.fb E.c ⟨E.jg, E.jr, E.jp⟩ bb)) =
        some (s', n) := by
      unfold TrieProbStore.loadAs
      rw [loadFile_as, f2, Option.map_some]
      obtain ⟨_, e'⟩ := loadFile_saved d2
      have hr2 : s'.ro = ro := by rw [← hs]; exact store_ro (by rw [hs]; exact r3) e'
      simp only [hr2, r1]
      rw [← hr2]
    have sh := f6.2.2.2.1
    refine ⟨x, p, shown E log2 iter c2 ?_, d6, ⟨f5.trans f3, ?_, ?_⟩⟩
    · unfold ToolEnv.showAs
      simp only
      rw [hl, Option.bind_some]
      simp only
      rw [d5, Option.map_some, f4]
    · rw [← f3]; exact sh.2.2.2
    · intro q hq
      rw [← f3]
      simp only [List.mem_cons, List.not_mem_nil, or_false] at hq
      rcases hq with rfl | rfl | rfl
      · exact sh.1
      · exact sh.2.1
      · exact sh.2.2.1
  · have hds' : a.choice.dataStructure ≠ "ef_trie" := by rw [hds]; decide
    have ht : Spec.trieType a.choice = .trieProb m .uniformPEF := by
      unfold Spec.trieType
      rw [if_neg hvc, if_neg hds', hm]
    rw [ht] at c1 c2
    obtain ⟨t, d1, -, d2⟩ := C53_pef_backoff_trie log2 hiter E.fb hsort E.negInf unkBytes E.defaultUnk (a.unk.getD E.defaultUnk) h (hp hds) hq hbits hfb hcb hunk hb
      hE.c hE.junkU hE.junkD hE.junk hE.junkU' hE.junkD' hE.junk' hE.jr hE.jp hjp header
    obtain ⟨scores, t1, d3, -, s', d4, ⟨x, d5, d6⟩, -⟩ := d2 0 [] E.d E.one (by simp) trivial
    obtain ⟨t', f1, f2⟩ := C54_pef_backoff_trie (N := N) E.fb hsort E.negInf unkBytes E.defaultUnk (a.unk.getD E.defaultUnk) h (hp hds) hq hbits hfb hcb hunk hb
      hE.c hE.junkU hE.junkD hE.junk hE.junkU' hE.junkD' hE.junk' hE.jr hE.jp header
    obtain rfl : t = t' := by rw [d1] at f1; exact Except.ok.inj (Option.some.inj f1)
    obtain ⟨scores', t1', f3, t2', n, f4, f5, p, f6, f7, -⟩ := f2 0 [] E.d E.one (by simp) trivial
    obtain ⟨-, e⟩ := Prod.mk.inj (Option.some.inj (d3.symm.trans f3))
    subst e
    have ht1 : t1 = t := no_session d3
    subst ht1
    obtain ⟨rfl, -⟩ := Prod.mk.inj (Option.some.inj (d4.symm.trans f4))
    have hb1 : StProb.buildArpa E.strtod E.fb E.sort E.negInf E.defaultUnk E.hv (GramsSt.pef E.junkU E.junkD) (RanksData.cv.st E.junk) ro (a.unk.getD E.defaultUnk)
        pb bb sections.length (Spec.arpaText lead gap sections tail) = some (.ok t1) := by
      rw [StProb.buildArpa_eq lead gap hg E.fb E.sort E.negInf E.defaultUnk _ ro pb bb hd hwords h.arpa]; exact d1
    have hs := prob_built_ro hb1
    have hbody : E.probBody ro sections.length (a.unk.getD E.defaultUnk) pb bb (Spec.arpaText lead gap sections tail) (.trieProb m .uniformPEF) =
        some (.ok (t1.save (GramsFile.pef E.junkU E.junkD) (RanksFile.data RanksData.cv E.junk E.jr) E.jp E.fb E.c bb)) := by
      unfold ToolEnv.probBody
      simp only
      rw [r1, hb1, Res.bind_ok, ← hs]
    have hfile := prob_written E a ha hv hun ho (by omega) (by omega) hpb hbb (by omega) (by omega) c1 (hro.symm ▸ hbody) hbin
    subst hfile
    have hl : loadFile (StProb.loadAs m (GramsFile.pef E.junkU' E.junkD') (RanksFile.data RanksData.cv E.junk' E.jr) E.fb E.c)
        (saveFile header (t1.save (GramsFile.pef E.junkU E.junkD) (RanksFile.data RanksData.cv E.junk E.jr) E.jp E.fb E.c bb)) =
        some (s', n) := by
      unfold StProb.loadAs
      rw [loadFile_as, f4, Option.map_some]
      obtain ⟨_, e'⟩ := loadFile_saved d4
      have hr2 : s'.ro = ro := by rw [← hs]; exact prob_ro (by rw [hs]; exact r3) e'
      simp only [hr2, r1]
      rw [← hr2]
    refine ⟨x, p, shown E log2 iter c2 ?_, d6, ⟨f7.total.trans f5, ?_, ?_⟩⟩
    · unfold ToolEnv.showAs
      simp only
      rw [hl, Option.bind_some]
      simp only
      rw [d5, Option.map_some, f6]
    · rw [← f5]; exact f7.shares.2.2.2
    · intro q hq
      rw [← f5]
      simp only [List.mem_cons, List.not_mem_nil, or_false] at hq
      rcases hq with rfl | rfl | rfl
      · exact f7.shares.1
      · exact f7.shares.2.1
      · exact f7.shares.2.2.1

/-- Specification: what is printed for a hash model: its order, the number of n-grams of the input, the size of the file, which is divided into the keys (as
many bytes per n-gram as asked for), the ranks with the tables of values, and the hash functions with the rest. -/
structure Spec.HashShown (keyBytes : Nat) (binary : List Byte) (sizes : List Nat) (p : HashPrinted N) : Prop where
  order : p.order = sizes.length
  numGrams : p.numGrams = sizes.sum
  keys : p.keys.bytes = keyBytes * sizes.sum
  all : p.keys.bytes + p.ranks.bytes + p.functions.bytes = binary.length
  shares : Spec.SharesOf binary sizes.sum p.total p.perGram [p.ranks, p.functions]

namespace Tools

theorem hash_count_shown {B : Nat} {L : SortLib} (hL : L.Valid) {mem extra : Nat} {files : List (List (List (List Byte) × Nat))}
    (h : Spec.CountLists mem files) (hw : ∀ f ∈ files, ∀ r ∈ f, ∀ w ∈ r.1, Spec.FileWord w)
    (hB : B = 64 ∨ (B = 32 ∧ ∀ f ∈ files, f.length < 2 ^ 26)) (hn : ∀ f ∈ files, f.length < 2 ^ 57) {hs : Nat → Mphf (List Byte) B}
    (hb : ∀ (k : Nat) (f : List (List (List Byte) × Nat)), files[k]? = some f → (hs k).BuiltFrom (f.map fun r => joinSp r.1))
    {c : Emphf (List Byte) B} (hc : ∀ k, Spec.EmphfReads c (hs k)) (header : Byte) :
    ∃ m n, MphCount.buildFiles L mem extra hs (files.map Spec.gramsText) = some (.ok m) ∧
      loadFile (MphCount.load c) (saveFile header (m.save c)) = some (m, n) ∧
      ((saveFile header (m.save c)).length < 2 ^ 64 → Spec.HashShown (B / 8) (saveFile header (m.save c)) (files.map List.length) (m.printSizes n : HashPrinted N)) := by
  obtain ⟨m, e1, n, e2, e3, e4⟩ := C54_hash_count (F := N) hL (extra := extra) h hB hn hb hc header
  refine ⟨m, n, ?_, e2, fun hl => ?_⟩
  · unfold MphCount.buildFiles
    rw [Res.mapM_map_ok (h := fun f => f.map fun r => (joinSp r.1, BitVec.ofNat 64 r.2)) fun f hf =>
      readGrams_text (h.nonempty f hf) (by have := hn f hf; omega) (hw f hf), Res.bind_ok, ← e1]
    congr 1
    unfold Spec.lines
    rw [List.map_map]
    apply List.map_congr_left
    intro f hf
    rw [Function.comp, List.map_map]
    apply List.map_congr_left
    intro r hr
    rw [Function.comp, BitVec.toNat_ofNat, Nat.mod_eq_of_lt (Nat.lt_of_lt_of_le (h.counts f hf r hr) (Nat.sub_le _ _))]
  · obtain ⟨p, p1, p2, p3, p4, p5, -, -, -, p6, -, -, p7, -, p8, p9⟩ := e4 (by omega)
    rw [p1]
    refine ⟨by rw [List.length_map]; exact p2, p3, p6, p7.trans e3, p4.trans e3, by rw [← e3]; exact p5, fun q hq => ?_⟩
    rw [← e3]
    simp only [List.mem_cons, List.not_mem_nil, or_false] at hq
    rcases hq with rfl | rfl
    · exact p8
    · exact p9

theorem hash_prob_shown {B : Nat} {strtod : List Byte → F × Nat} (lead gap : Nat) {sections : List (List (Spec.ArpaLine F) × Nat)} {tail : List Byte}
    (hg : Spec.GoodArpa strtod sections tail) (fb : FloatBits F) {sort : List F → List F} (hsort : ∀ l, (sort l).Perm l ∧ (sort l).Pairwise (· ≤ ·))
    (negInf default unk : F) {mem pb bb : Nat} (extra : Nat) {hs : Nat → Mphf (List Byte) B} {data : List (List (List (List Byte) × F × F))}
    (hd : Spec.ArpaLists sections data) (h : Spec.MphProbInput fb mem pb bb hs data)
    (hn : ∀ f ∈ data, f.length < 2 ^ 57) (hcb : ∀ ps bs, Quant.codebooks sort negInf pb bb data = some (.ok (ps, bs)) → ∀ l ∈ ps ++ bs, ∀ x ∈ l, Spec.IsFloat fb x)
    (hunk : Spec.IsFloat fb (Spec.unkProb Spec.unkText default (data.getD 0 []) unk))
    {c : Emphf (List Byte) B} (hc : ∀ k, Spec.EmphfReads c (hs k)) (header : Byte) :
    ∃ m n, MphProb.buildArpa strtod fb sort negInf default unk mem extra hs pb bb sections.length (Spec.arpaText lead gap sections tail) = some (.ok m) ∧
      loadFile (MphProb.load fb c) (saveFile header (m.save fb c bb)) = some (m, n) ∧
      ((saveFile header (m.save fb c bb)).length < 2 ^ 64 →
        Spec.HashShown (B / 8) (saveFile header (m.save fb c bb)) (data.map List.length) (m.printSizes n : HashPrinted N)) := by
  obtain ⟨m, e1, n, e2, e3, e4⟩ := C54_hash_backoff (F := N) fb hsort negInf default unk extra h hn hcb hunk hc header
  refine ⟨m, n, ?_, e2, fun hl => ?_⟩
  · unfold MphProb.buildArpa
    rw [arpaSections_ok lead gap hg hd, Res.bind_ok]
    exact e1
  · obtain ⟨p, p1, p2, p3, p4, p5, -, -, -, p6, -, -, p7, -, p8, p9⟩ := e4 (by omega)
    rw [p1]
    refine ⟨by rw [List.length_map]; exact p2, p3, p6, p7.trans e3, p4.trans e3, by rw [← e3]; exact p5, fun q hq => ?_⟩
    rw [← e3]
    simp only [List.mem_cons, List.not_mem_nil, or_false] at hq
    rcases hq with rfl | rfl
    · exact p8
    · exact p9

end Tools

open Tools in
/-- **C69** (`print_stats` on hash count models). -/
theorem C69_print_stats_hash_count (log2 : N → N) (iter : List (Nat × Nat) → List (Nat × Nat)) (E : ToolEnv F) (hL : E.L.Valid) (a : HashCommand F)
    (ha : Spec.ValidHashArgs a.choice) (hv : a.choice.value = "count")
    (hun : ∀ u ∈ a.unk, u < 0) {files : List (List (List (List Byte) × Nat))} (ho : a.order = files.length) (h : Spec.CountLists E.mem files)
    (hw : ∀ f ∈ files, ∀ r ∈ f, ∀ w ∈ r.1, Spec.FileWord w) (hn : ∀ f ∈ files, f.length < if a.choice.hashKeyBytes = 4 then 2 ^ 26 else 2 ^ 57)
    (hb : Spec.HashesBuilt E a.choice.hashKeyBytes (files.map (·.map fun r => joinSp r.1)))
    {folder : List (List Byte)} (hf : folder.take files.length = files.map Spec.gramsText) {arpa : Option (List Byte)} {binary : List Byte}
    (hbin : buildHash E a folder arpa = some (.ok (some binary))) (hsize : binary.length < 2 ^ 64) :
    ∃ p : HashPrinted N, printStatsMain E log2 iter binary = some (.ok (some (.hash p))) ∧
      Spec.HashShown a.choice.hashKeyBytes binary (files.map List.length) p := by
  obtain ⟨header, c1, c2, -⟩ := C35_hash_header a.choice ha
  have hord := h.order_min
  have hord' := h.order_max
  have ht : Spec.hashType a.choice = .mphCount (8 * a.choice.hashKeyBytes) := by unfold Spec.hashType; rw [if_pos hv]
  have hb' : ∀ (k : Nat) (f : List (List (List Byte) × Nat)), files[k]? = some f →
      if a.choice.hashKeyBytes = 4 then (E.hs32 k).BuiltFrom (f.map fun r => joinSp r.1) else (E.hs64 k).BuiltFrom (f.map fun r => joinSp r.1) := by
    intro k f hk
    exact hb.1 k _ (by rw [List.getElem?_map, hk]; rfl)
  have hb2 := hb.2
  rw [ht] at c1 c2
  rcases ha.hashKeyBytes with h4 | h8
  · simp only [h4, if_true] at hb' hb2 hn c1 c2 ⊢
    obtain ⟨m, n, d1, d2, d3⟩ := hash_count_shown (N := N) hL (extra := E.extra) h hw (.inr ⟨rfl, hn⟩) (fun f hf => by have := hn f hf; omega) hb' hb2 header
    have hbody : E.countBody 0 (files.map Spec.gramsText) (.mphCount (8 * 4)) = some (.ok (m.save E.c32)) := by
      unfold ToolEnv.countBody
      simp only
      rw [if_pos (by decide), d1, Res.bind_ok]
    have hfile := hash_count_written E a hv hun ho hord hord' hf c1 hbody hbin
    subst hfile
    refine ⟨_, shown E log2 iter c2 ?_, d3 hsize⟩
    unfold ToolEnv.showAs
    simp only
    rw [if_pos (by decide), d2, Option.map_some]
  · have h84 : ¬ (8 : Nat) = 4 := by decide
    simp only [h8, if_neg h84] at hb' hb2 hn c1 c2 ⊢
    obtain ⟨m, n, d1, d2, d3⟩ := hash_count_shown (N := N) hL (extra := E.extra) h hw (.inl rfl) hn hb' hb2 header
    have hbody : E.countBody 0 (files.map Spec.gramsText) (.mphCount (8 * 8)) = some (.ok (m.save E.c64)) := by
      unfold ToolEnv.countBody
      simp only
      rw [if_neg (by decide), if_pos (by decide), d1, Res.bind_ok]
    have hfile := hash_count_written E a hv hun ho hord hord' hf c1 hbody hbin
    subst hfile
    refine ⟨_, shown E log2 iter c2 ?_, d3 hsize⟩
    unfold ToolEnv.showAs
    simp only
    rw [if_neg (by decide), if_pos (by decide), d2, Option.map_some]

open Tools in
/-- **C69** (`print_stats` on hash models of probabilities and backoffs). -/
theorem C69_print_stats_hash_backoff (log2 : N → N) (iter : List (Nat × Nat) → List (Nat × Nat)) (E : ToolEnv F)
    (hsort : ∀ l, (E.sort l).Perm l ∧ (E.sort l).Pairwise (· ≤ ·))
    (a : HashCommand F) (ha : Spec.ValidHashArgs a.choice) (hv : a.choice.value = "prob_backoff")
    (hun : ∀ u ∈ a.unk, u < 0) (lead gap : Nat) {sections : List (List (Spec.ArpaLine F) × Nat)} {tail : List Byte} (ho : a.order = sections.length)
    (hg : Spec.GoodArpa E.strtod sections tail) {data : List (List (List (List Byte) × F × F))} {pb bb : Nat} (hpb : pb = a.p.getD 8) (hbb : bb = a.b.getD 8)
    (hd : Spec.ArpaLists sections data)
    (h : if a.choice.hashKeyBytes = 4 then Spec.MphProbInput E.fb E.mem pb bb E.hs32 data else Spec.MphProbInput E.fb E.mem pb bb E.hs64 data)
    (hr : ∀ k, if a.choice.hashKeyBytes = 4 then Spec.EmphfReads E.c32 (E.hs32 k) else Spec.EmphfReads E.c64 (E.hs64 k))
    (hn : ∀ f ∈ data, f.length < 2 ^ 57)
    (hcb : ∀ ps bs, Quant.codebooks E.sort E.negInf pb bb data = some (.ok (ps, bs)) → ∀ l ∈ ps ++ bs, ∀ x ∈ l, Spec.IsFloat E.fb x)
    (hunk : Spec.IsFloat E.fb (Spec.unkProb Spec.unkText E.defaultUnk (data.getD 0 []) (a.unk.getD E.defaultUnk))) {folder : List (List Byte)} {binary : List Byte}
    (hbin : buildHash E a folder (some (Spec.arpaText lead gap sections tail)) = some (.ok (some binary))) (hsize : binary.length < 2 ^ 64) :
    ∃ p : HashPrinted N, printStatsMain E log2 iter binary = some (.ok (some (.hash p))) ∧
      Spec.HashShown a.choice.hashKeyBytes binary (data.map List.length) p := by
  obtain ⟨header, c1, c2, -⟩ := C35_hash_header a.choice ha
  have hls : sections.length = data.length := by
    have := congrArg List.length hd
    unfold Spec.lines at this
    rw [List.length_map, List.length_map] at this
    exact this
  have hvc : a.choice.value ≠ "count" := by rw [hv]; decide
  have ht : Spec.hashType a.choice = .mphProb (8 * a.choice.hashKeyBytes) := by unfold Spec.hashType; rw [if_neg hvc]
  rw [ht] at c1 c2
  rcases ha.hashKeyBytes with h4 | h8
  · simp only [h4, if_true] at h hr c1 c2 ⊢
    have hord := h.arpa.order_min
    have hord' := h.arpa.order_max
    have hq1 := h.quant.probs.2
    have hq2 := h.quant.backoffs.2
    obtain ⟨m, n, d1, d2, d3⟩ := hash_prob_shown (N := N) lead gap hg E.fb hsort E.negInf E.defaultUnk (a.unk.getD E.defaultUnk) E.extra hd h hn hcb hunk hr header
    have hbody : E.probBody 0 sections.length (a.unk.getD E.defaultUnk) pb bb (Spec.arpaText lead gap sections tail) (.mphProb (8 * 4)) =
        some (.ok (m.save E.fb E.c32 bb)) := by
      unfold ToolEnv.probBody
      simp only
      rw [if_pos (by decide), d1, Res.bind_ok]
    have hfile := hash_prob_written E a hv hun ho (by omega) (by omega) hpb hbb (by omega) (by omega) c1 hbody hbin
    subst hfile
    refine ⟨_, shown E log2 iter c2 ?_, d3 hsize⟩
    unfold ToolEnv.showAs
    simp only
    rw [if_pos (by decide), d2, Option.map_some]
  · have h84 : ¬ (8 : Nat) = 4 := by decide
    simp only [h8, if_neg h84] at h hr c1 c2 ⊢
    have hord := h.arpa.order_min
    have hord' := h.arpa.order_max
    have hq1 := h.quant.probs.2
    have hq2 := h.quant.backoffs.2
    obtain ⟨m, n, d1, d2, d3⟩ := hash_prob_shown (N := N) lead gap hg E.fb hsort E.negInf E.defaultUnk (a.unk.getD E.defaultUnk) E.extra hd h hn hcb hunk hr header
    have hbody : E.probBody 0 sections.length (a.unk.getD E.defaultUnk) pb bb (Spec.arpaText lead gap sections tail) (.mphProb (8 * 8)) =
        some (.ok (m.save E.fb E.c64 bb)) := by
      unfold ToolEnv.probBody
      simp only
      rw [if_neg (by decide), if_pos (by decide), d1, Res.bind_ok]
    have hfile := hash_prob_written E a hv hun ho (by omega) (by omega) hpb hbb (by omega) (by omega) c1 hbody hbin
    subst hfile
    refine ⟨_, shown E log2 iter c2 ?_, d3 hsize⟩
    unfold ToolEnv.showAs
    simp only
    rw [if_neg (by decide), if_pos (by decide), d2, Option.map_some]

end

namespace PrintToolExample
open SaveExample EndExample FilesExample TrieProbExample ToolsExample

/-- The environment of the examples of C69, with sequences that were not built empty. -/
noncomputable def env0 (hs : Nat → Mphf (List Byte) 64) (c : Emphf (List Byte) 64) (mem : Nat) : ToolEnv ℚ := { env hs c mem with jp := PefStatsExample.noPtrs }

theorem env0_ok (hs : Nat → Mphf (List Byte) 64) (c : Emphf (List Byte) 64) (mem : Nat) : Spec.ToolEnvOk (env0 hs c mem) :=
  let h := env_ok hs c mem
  ⟨h.sort, h.c, h.c', h.ju, h.jg, h.ji, h.je, PefStatsExample.noPtrs_fits, h.jr, h.junkU, h.junkD, h.junkU', h.junkD', h.junk, h.junk', h.past⟩

/-- `print_stats` on the file of `build_trie pef_trie 2 count --ranks PSPEF` of the first example of C69: three words and three bigrams. -/
example : ∃ (binary : List Byte) (x : Printed ℚ) (p : TriePrinted ℚ),
    buildTrie (env0 MphCountExample.hs (codecOf []) 100) ⟨⟨"pef_trie", "count", none, some "PSPEF"⟩, 2, none, none, some 3⟩
      (MphCountExample.files.map Spec.gramsText) none = some (.ok (some binary)) ∧
    printStatsMain (env0 MphCountExample.hs (codecOf []) 100) (id : ℚ → ℚ) id binary = some (.ok (some (.countTrie x p))) ∧ x.numGrams = 6 ∧
    p.total = binary.length := by
  obtain ⟨binary, h1, -⟩ := C69_count_trie_programs (env0 MphCountExample.hs (codecOf []) 100) (env0_ok _ _ _)
    ⟨⟨"pef_trie", "count", none, some "PSPEF"⟩, 2, none, none, some 3⟩ ⟨.inr rfl, .inl rfl, by simp, by simp⟩ rfl (by simp) (files := MphCountExample.files) (by decide)
    files_trie (fun _ => CheckExample.files_pef) files_words (by simp [MphCountExample.files, Spec.maxLines]) (TextExample.built3 (keys := U) rfl (by decide)) files_hashes
    (folder := MphCountExample.files.map Spec.gramsText) (by rfl) none
  obtain ⟨x, p, h2, h3, h4⟩ := C69_print_stats_count_trie (id : ℚ → ℚ) (iter := id) (fun _ => List.Perm.refl _) (env0 MphCountExample.hs (codecOf []) 100) (env0_ok _ _ _) rfl
    ⟨⟨"pef_trie", "count", none, some "PSPEF"⟩, 2, none, none, some 3⟩ ⟨.inr rfl, .inl rfl, by simp, by simp⟩ rfl (by simp) (files := MphCountExample.files) (by decide)
    files_trie (fun _ => CheckExample.files_pef) files_words (by simp [MphCountExample.files, Spec.maxLines]) (TextExample.built3 (keys := U) rfl (by decide)) files_hashes
    (folder := MphCountExample.files.map Spec.gramsText) (by rfl) h1
  exact ⟨binary, x, p, h1, h2, h3.numGrams, h4.total⟩

/-- `print_stats` on backoff tries of both kinds. -/
example (d : String) (hd : d = "ef_trie" ∨ d = "pef_trie") : ∃ (binary : List Byte) (x : Printed ℚ) (p : ProbPrinted ℚ),
    buildTrie (env0 MphProbExample.hs (codecOf []) 200) ⟨⟨d, "prob_backoff", some 1, none⟩, 3, none, some 2, some 2⟩ []
      (some (Spec.arpaText 0 0 sections [nl])) = some (.ok (some binary)) ∧
    printStatsMain (env0 MphProbExample.hs (codecOf []) 200) (id : ℚ → ℚ) id binary = some (.ok (some (.backoffTrie x p))) ∧ x.order = 3 := by
  obtain ⟨binary, qp, qb, h1, -⟩ := C69_backoff_trie_programs (env0 MphProbExample.hs (codecOf []) 200) (env0_ok _ _ _) sortQ_ok
    ⟨⟨d, "prob_backoff", some 1, none⟩, 3, none, some 2, some 2⟩ ⟨hd, .inr rfl, by simp, by simp⟩ rfl (by simp) 0 0 (by rfl) good (pb := 2) (bb := 2) rfl rfl
    lists data_words MphProbExample.data_trie (fun _ => PefEndExample.data_pef) MphProbExample.data_input.quant (by decide) input8.floats codes8 unk8
    (TextExample.built3 (keys := U) rfl (by decide)) MphProbExample.data_hashes []
  obtain ⟨x, p, h2, h3, h4⟩ := C69_print_stats_backoff_trie (id : ℚ → ℚ) (iter := id) (fun _ => List.Perm.refl _) (env0 MphProbExample.hs (codecOf []) 200)
    (env0_ok _ _ _) rfl sortQ_ok ⟨⟨d, "prob_backoff", some 1, none⟩, 3, none, some 2, some 2⟩ ⟨hd, .inr rfl, by simp, by simp⟩ rfl (by simp) 0 0 (by rfl) good
    (pb := 2) (bb := 2) rfl rfl
    lists data_words MphProbExample.data_trie (fun _ => PefEndExample.data_pef) MphProbExample.data_input.quant (by decide) input8.floats codes8 unk8
    (TextExample.built3 (keys := U) rfl (by decide)) MphProbExample.data_hashes h1
  exact ⟨binary, x, p, h1, h2, h3.order⟩

/-- The codec of the hash functions of the example. -/
noncomputable abbrev codec2 : Emphf (List Byte) 64 := codecOf [(MphCountExample.hs 0).hasher, (MphCountExample.hs 1).hasher, (MphCountExample.hs 2).hasher]

/-- `print_stats` on the hash model of the count files. -/
example : ∃ binary : List Byte, buildHash (env MphCountExample.hs codec2 100) ⟨⟨"count", 8⟩, 2, none, none, none⟩
      (MphCountExample.files.map Spec.gramsText) none = some (.ok (some binary)) ∧
    (binary.length < 2 ^ 64 → ∃ p : HashPrinted ℚ, printStatsMain (env MphCountExample.hs codec2 100) (id : ℚ → ℚ) id binary = some (.ok (some (.hash p))) ∧
      p.numGrams = 6 ∧ p.keys.bytes = 48) := by
  have hb : Spec.HashesBuilt (env MphCountExample.hs codec2 100) 8 (MphCountExample.files.map (·.map fun r => joinSp r.1)) := ⟨fun k f hk => by
    rw [List.getElem?_map] at hk
    obtain ⟨f', h1, rfl⟩ := Option.map_eq_some_iff.1 hk
    exact MphCountExample.hs_built k f' h1, hs_read⟩
  obtain ⟨binary, h1, -⟩ := C69_hash_count_programs (env MphCountExample.hs codec2 100)
    exLib_valid ⟨⟨"count", 8⟩, 2, none, none, none⟩ ⟨.inl rfl, .inr rfl⟩ rfl (by simp) (files := MphCountExample.files) (by decide) MphCountExample.files_ok
    (fun f hf => (files_words f hf).2) (by decide) hb (folder := MphCountExample.files.map Spec.gramsText) (by rfl) none
  refine ⟨binary, h1, fun hl => ?_⟩
  obtain ⟨p, h2, h3⟩ := C69_print_stats_hash_count (id : ℚ → ℚ) id (env MphCountExample.hs codec2 100)
    exLib_valid ⟨⟨"count", 8⟩, 2, none, none, none⟩ ⟨.inl rfl, .inr rfl⟩ rfl (by simp) (files := MphCountExample.files) (by decide) MphCountExample.files_ok
    (fun f hf => (files_words f hf).2) (by decide) hb (folder := MphCountExample.files.map Spec.gramsText) (by rfl) h1 hl
  exact ⟨p, h2, h3.numGrams, h3.keys⟩

end PrintToolExample

end Tongrams
