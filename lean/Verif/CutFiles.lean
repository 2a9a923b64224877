import Verif.PefSave
import Verif.EndToEnd

/-!
# Files that were cut short

A program that is stopped while it writes a model, or a copy that is not finished, leaves the first bytes of the file.  The format has no
checksum and no total length, and `load` does not look at the state of the stream.  This module proves that no proper beginning of a
file is read completely: whatever the cut, `load` runs into the end of the stream.
-/

set_option linter.unusedSectionVars false
set_option linter.unusedVariables false

namespace Tongrams

/-- Specification: what is read depends on the bytes that are consumed only. -/
def Spec.Local {α : Type} (g : Rd α) : Prop := ∀ s a r, g s = some (a, r) → ∃ p, s = p ++ r ∧ Spec.Reads g p a

namespace Spec.Local

theorem ret {α : Type} (a : α) : Spec.Local (Rd.ret a) := fun s a' r h => by
  obtain ⟨rfl, rfl⟩ := Prod.mk.inj (Option.some.inj h)
  exact ⟨[], rfl, Spec.Reads.ret _⟩

theorem fail {α : Type} : Spec.Local (Rd.fail : Rd α) := fun s a r h => by cases h

theorem bind {α β : Type} {g : Rd α} {f : α → Rd β} (hg : Spec.Local g) (hf : ∀ a, Spec.Local (f a)) : Spec.Local (Rd.bind g f) := by
  intro s b r h
  obtain ⟨⟨a, s'⟩, h1, h2⟩ := Option.bind_eq_some_iff.1 h
  obtain ⟨p, rfl, hp⟩ := hg s a s' h1
  obtain ⟨q, rfl, hq⟩ := hf a s' b r h2
  exact ⟨p ++ q, (List.append_assoc ..).symm, Spec.Reads.bind hp hq⟩

theorem getU : ∀ k, Spec.Local (Tongrams.getU k)
  | 0 => ret 0
  | k + 1 => by
    intro s a r h
    cases s with
    | nil => cases h
    | cons b s =>
      obtain ⟨⟨v, s'⟩, h1, h2⟩ := Option.map_eq_some_iff.1 h
      obtain ⟨rfl, rfl⟩ := Prod.mk.inj h2
      obtain ⟨p, rfl, hp⟩ := getU k s v s' h1
      refine ⟨b :: p, rfl, fun r' => ?_⟩
      show (Tongrams.getU k (p ++ r')).map _ = _
      rw [hp r']
      rfl

theorem getWord (w k : Nat) : Spec.Local (Tongrams.getWord w k) := bind (getU k) fun _ => ret _

theorem getI : Spec.Local Tongrams.getI := bind (getWord 64 8) fun _ => ret _

theorem getN {α : Type} {g : Rd α} (hg : Spec.Local g) : ∀ n, Spec.Local (Tongrams.getN g n)
  | 0 => ret []
  | n + 1 => bind hg fun _ => bind (getN hg n) fun _ => ret _

theorem getVec {α : Type} {g : Rd α} (hg : Spec.Local g) : Spec.Local (Tongrams.getVec g) := bind (getU 8) fun n => getN hg n

theorem bitVector : Spec.Local BitVector.load := bind (getU 8) fun _ => bind (getVec (getWord 64 8)) fun _ => ret _

theorem compactVector : Spec.Local CompactVector.load :=
  bind (getU 8) fun _ => bind (getU 8) fun _ => bind (getWord 64 8) fun _ => bind (getVec (getWord 64 8)) fun _ => ret _

theorem hcv (B : Nat) : Spec.Local (HCV.load B) :=
  bind (getU 8) fun _ => bind (getU 8) fun _ => bind (getWord 64 8) fun _ => bind (getVec (getWord B (B / 8))) fun _ => ret _

theorem ctvec : Spec.Local CTVec.load :=
  bind (getU 8) fun _ => bind (getU 8) fun _ => bind (getU 8) fun _ => bind (getU 8) fun _ => bind bitVector fun _ => ret _

theorem darray : Spec.Local DArray.load :=
  bind (getU 8) fun _ => bind (getVec getI) fun _ => bind (getVec (getWord 16 2)) fun _ => bind (getVec (getU 8)) fun _ => ret _

theorem ef : Spec.Local EF.load :=
  bind (getU 1) fun _ => bind bitVector fun _ => bind darray fun _ => bind darray fun _ => bind bitVector fun _ => bind (getU 8) fun _ => ret _

theorem ic : Spec.Local ICSeq.load := bind (getU 8) fun _ => bind bitVector fun _ => bind bitVector fun _ => bind darray fun _ => ret _

theorem psef : Spec.Local PSEF.load := bind (getU 8) fun _ => ef

theorem pef : Spec.Local PEF.load :=
  bind (getU 8) fun _ => bind (getU 8) fun _ => bind (getU 8) fun _ => bind compactVector fun _ => bind bitVector fun _ => bind (getU 1) fun _ => ret _

theorem pefObj (junkU junkD : List W) : Spec.Local (PefObj.load junkU junkD) := by
  refine bind pef fun f => ?_
  split
  · exact ret _
  · split
    · exact fail
    · exact ret _

end Spec.Local

/-- The external parts of a hash function read what they consume only: three seeds of fixed size; a vector with its length. -/
def Spec.EmphfLocal {K : Type} {B : Nat} (c : Emphf K B) : Prop := Spec.Local c.loadHasher ∧ Spec.Local c.loadPairs

namespace Spec.Local
variable {K F : Type} {B : Nat}

theorem mphf {c : Emphf K B} (hc : Spec.EmphfLocal c) : Spec.Local (Mphf.load c) :=
  bind (getU 8) fun _ => bind (getU 8) fun _ => bind hc.1 fun _ => bind hc.2 fun _ => ret _

theorem sv {c : Emphf K B} (hc : Spec.EmphfLocal c) : Spec.Local (SVTable.load c) := bind (mphf hc) fun _ => bind (hcv B) fun _ => ret _

theorem dv {c : Emphf K B} (hc : Spec.EmphfLocal c) : Spec.Local (DVTable.load c) := bind (mphf hc) fun _ => bind ctvec fun _ => ret _

theorem ut {c : Emphf K B} (hc : Spec.EmphfLocal c) : Spec.Local (UTable.load c) := bind (mphf hc) fun _ => bind compactVector fun _ => ret _

theorem fastEF {c : Emphf Nat 64} (hc : Spec.EmphfLocal c) : Spec.Local (FastEF.load c) :=
  bind (getU 8) fun _ => bind (ut hc) fun _ => bind (getVec (getU 8)) fun _ => bind bitVector fun _ => bind darray fun _ => bind bitVector fun _ =>
    bind (getU 1) fun _ => ret _

theorem counts (order : Nat) : Spec.Local (loadCounts order) := getN compactVector order

theorem getF (fb : FloatBits F) : Spec.Local (Tongrams.getF fb) := bind (getWord 32 4) fun _ => ret _

theorem quantized (fb : FloatBits F) (order : Nat) : Spec.Local (loadQuantized fb order) :=
  bind (getN (getU 1) order) fun _ => bind (getN (getVec (getF fb)) order) fun _ => ret _

theorem mphCount {c : Emphf (List Byte) B} (hc : Spec.EmphfLocal c) : Spec.Local (MphCount.load c) :=
  bind (getU 1) fun order => bind (counts order) fun _ => bind (getN (sv hc) order) fun _ => ret _

theorem mphProb (fb : FloatBits F) {c : Emphf (List Byte) B} (hc : Spec.EmphfLocal c) : Spec.Local (MphProb.load fb c) := by
  refine bind (getU 1) fun order => bind (getF fb) fun _ => ?_
  split
  · exact fail
  · exact bind (quantized fb _) fun _ => bind (quantized fb _) fun _ => bind (getN (sv hc) order) fun _ => ret _

section
variable {G : GramsData} {R : RanksData}

theorem array (hG : Spec.Local G.load) (hR : Spec.Local R.load) (order : Nat) (withRanks : Bool) : Spec.Local (ArrayStore.load G R order withRanks) := by
  refine bind (getU 8) fun _ => bind ?_ fun _ => bind ?_ fun _ => bind ef fun _ => ret _
  · split
    · exact bind hG fun _ => ret _
    · exact ret _
  · split
    · exact bind hR fun _ => ret _
    · exact ret _

theorem arraysFrom (hG : Spec.Local G.load) (hR : Spec.Local R.load) : ∀ n k, Spec.Local (ArrayStore.loadFrom G R k n)
  | 0, _ => ret []
  | n + 1, k => bind (array hG hR k true) fun _ => bind (arraysFrom hG hR n (k + 1)) fun _ => ret _

theorem arrays (hG : Spec.Local G.load) (hR : Spec.Local R.load) (b : Bool) : ∀ n, Spec.Local (ArrayStore.loadAll G R b n)
  | 0 => fail
  | n + 1 => bind (array hG hR 1 b) fun _ => bind (arraysFrom hG hR n 2) fun _ => ret _

theorem trieCount {c : Emphf K 64} (hc : Spec.EmphfLocal c) (hG : Spec.Local G.load) (hR : Spec.Local R.load) : Spec.Local (TrieCountStore.load G R c) :=
  bind (getU 1) fun order => bind (getU 1) fun _ => bind (counts order) fun _ => bind (sv hc) fun _ => bind (arrays hG hR true order) fun _ => ret _

theorem trieProb (fb : FloatBits F) {c : Emphf K 64} (hc : Spec.EmphfLocal c) (hG : Spec.Local G.load) (hR : Spec.Local R.load) :
    Spec.Local (TrieProbStore.load G R fb c) := by
  refine bind (getU 1) fun order => bind (getU 1) fun _ => bind (getF fb) fun _ => ?_
  split
  · exact fail
  · exact bind (quantized fb _) fun _ => bind (quantized fb _) fun _ => bind (dv hc) fun _ => bind (arrays hG hR false order) fun _ => ret _

end

section
variable {G : GramsSt} {R : RanksSt} {Fg : GramsFile G} {Fr : RanksFile R}

theorem starray (hG : ∀ k, Spec.Local (Fg.load k)) (hR : ∀ k, Spec.Local (Fr.load k)) (order : Nat) (withRanks : Bool) :
    Spec.Local (StArray.load Fg Fr order withRanks) := by
  refine bind (getU 8) fun _ => bind ?_ fun _ => bind ?_ fun _ => bind ef fun _ => ret _
  · split
    · exact hG _
    · exact ret _
  · split
    · exact hR _
    · exact ret _

theorem starraysFrom (hG : ∀ k, Spec.Local (Fg.load k)) (hR : ∀ k, Spec.Local (Fr.load k)) : ∀ n k, Spec.Local (StArray.loadFrom Fg Fr k n)
  | 0, _ => ret []
  | n + 1, k => bind (starray hG hR k true) fun _ => bind (starraysFrom hG hR n (k + 1)) fun _ => ret _

theorem starrays (hG : ∀ k, Spec.Local (Fg.load k)) (hR : ∀ k, Spec.Local (Fr.load k)) (b : Bool) : ∀ n, Spec.Local (StArray.loadAll Fg Fr b n)
  | 0 => fail
  | n + 1 => bind (starray hG hR 1 b) fun _ => bind (starraysFrom hG hR n 2) fun _ => ret _

theorem stCount {c : Emphf K 64} (hc : Spec.EmphfLocal c) (hG : ∀ k, Spec.Local (Fg.load k)) (hR : ∀ k, Spec.Local (Fr.load k)) :
    Spec.Local (StCount.load Fg Fr c) :=
  bind (getU 1) fun order => bind (getU 1) fun _ => bind (counts order) fun _ => bind (sv hc) fun _ => bind (starrays hG hR true order) fun _ => ret _

theorem stProb (fb : FloatBits F) {c : Emphf K 64} (hc : Spec.EmphfLocal c) (hG : ∀ k, Spec.Local (Fg.load k)) (hR : ∀ k, Spec.Local (Fr.load k)) :
    Spec.Local (StProb.load Fg Fr fb c) := by
  refine bind (getU 1) fun order => bind (getU 1) fun _ => bind (getF fb) fun _ => ?_
  split
  · exact fail
  · exact bind (quantized fb _) fun _ => bind (quantized fb _) fun _ => bind (dv hc) fun _ => bind (starrays hG hR false order) fun _ => ret _

theorem pefRanks (junkU junkD : Nat → List W) (ji : ICSeq) (je : EF) (pr : PefRanks) (k : Nat) : Spec.Local ((pr.file junkU junkD ji je).load k) := by
  cases pr with
  | ic => exact bind (f := fun d => Rd.ret (some (junkU k, d))) ic fun _ => ret _
  | psef => exact bind (f := fun d => Rd.ret (some (junkU k, d))) psef fun _ => ret _
  | pspef s => exact bind (getU 8) fun _ => pefObj _ _

end

theorem countRanks (cr : CountRanks) : Spec.Local cr.data.load := by
  cases cr
  · exact ic
  · exact psef

end Spec.Local

/-! ## The property -/

/-- **C63** (any structure).  If a file is loaded and read to its end, then no proper beginning of it is loaded: whatever the cut, the load reads beyond the
end.  And bytes after the end do not matter. -/
theorem C63_no_proper_beginning_is_loaded {α : Type} {g : Rd α} (hg : Spec.Local g) {file : List Byte} {x : α} (h : loadFile g file = some (x, file.length)) :
    (∀ n < file.length, loadFile g (file.take n) = none) ∧ ∀ more, loadFile g (file ++ more) = some (x, file.length) := by
  have hl : Spec.Local (Rd.bind (getWord 8 1) fun _ => g) := Spec.Local.bind (Spec.Local.getWord 8 1) fun _ => hg
  have hnil : Rd.bind (getWord 8 1) (fun _ => g) file = some (x, []) := by
    unfold loadFile at h
    obtain ⟨⟨a, r⟩, h1, h2⟩ := Option.map_eq_some_iff.1 h
    obtain ⟨rfl, h3⟩ := Prod.mk.inj h2
    obtain ⟨p, e, -⟩ := hl _ _ _ h1
    have hr : r = [] := by
      have := congrArg List.length e
      rw [List.length_append] at this
      rw [← List.length_eq_zero_iff]
      simp only at h3
      by_cases hz : file.length = 0 <;> omega
    rw [h1, hr]
  have hR : Spec.Reads (Rd.bind (getWord 8 1) fun _ => g) file x := by
    obtain ⟨p, e, hp⟩ := hl _ _ _ hnil
    rw [List.append_nil] at e
    rw [e]; exact hp
  refine ⟨fun n hn => ?_, fun more => ?_⟩
  · cases hc : loadFile g (file.take n) with
    | none => rfl
    | some y =>
      exfalso
      unfold loadFile at hc
      obtain ⟨⟨a, r⟩, h1, -⟩ := Option.map_eq_some_iff.1 hc
      obtain ⟨p, e, hp⟩ := hl _ _ _ h1
      have := hp (r ++ file.drop n)
      rw [← List.append_assoc, ← e, List.take_append_drop, hnil] at this
      have := (Prod.mk.inj (Option.some.inj this)).2
      have := congrArg List.length this
      rw [List.length_append, List.length_drop, List.length_nil] at this
      omega
  · unfold loadFile
    rw [hR more]
    simp only [Option.map_some, List.length_append]
    congr 2
    omega

/-- **C63** (count tries).  Whatever beginning of the file of a count trie is left, its load reads beyond the end; the whole file is loaded, also if bytes follow. -/
theorem C63_cut_count_trie {K : Type} [DecidableEq K] {L : SortLib} (hL : L.Valid) {U : List K}
    {files : List (List (List K × Nat))} {ro : Nat} (h : Spec.CountFiles U files ro) {hv : Mphf K 64} (hb : hv.BuiltFrom U)
    {hr : Nat → Mphf Nat 64} (hh : Spec.RangeHashes hr files) (cr : CountRanks) (hcr : cr = .psef → ∀ f ∈ files, f.length < 2 ^ 32)
    {c : Emphf K 64} (hc : Spec.EmphfReads c hv) {c' : Emphf Nat 64} (hc' : ∀ k, Spec.EmphfReads c' (hr k)) (hl : Spec.EmphfLocal c)
    (hl' : Spec.EmphfLocal c') {junk : UTable Nat 64}
    (hju : junk.Fits c') {j : Junk (GramsData.fastEF hr c' junk) cr.data} (hj1 : FastEF.Fits c' j.grams) (hj2 : cr.data.fits j.ranks)
    (hj3 : j.ptrs.Fits) (header : Byte) :
    ∃ s : TrieCountStore K (GramsData.fastEF hr c' junk) cr.data, TrieCountStore.build L hv _ _ ro files = some (.ok s) ∧
      (∀ n < (saveFile header (s.save c j)).length,
        loadFile (TrieCountStore.load (GramsData.fastEF hr c' junk) cr.data c) ((saveFile header (s.save c j)).take n) = none) ∧
      ∃ s', (∀ more, loadFile (TrieCountStore.load (GramsData.fastEF hr c' junk) cr.data c) (saveFile header (s.save c j) ++ more) =
          some (s', (saveFile header (s.save c j)).length)) ∧
        ∀ (mem : List W), ∀ f ∈ files, ∀ gram count, (gram, count) ∈ f → (s'.toModel mem).lookup gram = some count := by
  obtain ⟨s, s', h1, h2, -, h4⟩ := C36_count_trie_through_a_file hL h hb hh cr hcr hc hc' hju hj1 hj2 hj3 header
  obtain ⟨k1, k2⟩ := C63_no_proper_beginning_is_loaded (Spec.Local.trieCount hl (G := GramsData.fastEF hr c' junk) (Spec.Local.fastEF hl') (Spec.Local.countRanks cr)) h2
  exact ⟨s, h1, k1, s', k2, h4⟩

/-- **C63** (backoff tries). -/
theorem C63_cut_backoff_trie {K F : Type} [DecidableEq K] [FloatArith F]
    (fb : FloatBits F) {sort : List F → List F} (hsort : ∀ l, (sort l).Perm l ∧ (sort l).Pairwise (· ≤ ·))
    (negInf : F) (unkWord : K) (default unk : F) {U : List K} {data : List (List (List K × F × F))} {ro pb bb : Nat}
    (h : Spec.ProbFiles U data ro) (hq : Spec.Quantisable data pb bb) (hbits : pb + bb ≤ 58)
    (hfb : ∀ f0, data[0]? = some f0 → ∀ r ∈ f0, fb.dec (fb.enc r.2.1) = r.2.1 ∧ fb.dec (fb.enc r.2.2) = r.2.2)
    (hcb : ∀ ps bs, Quant.codebooks sort negInf pb bb data = some (.ok (ps, bs)) → ∀ l ∈ ps ++ bs, ∀ x ∈ l, Spec.IsFloat fb x)
    (hunk : Spec.IsFloat fb (Spec.unkProb unkWord default (data.getD 0 []) unk))
    {hv : Mphf K 64} (hb : hv.BuiltFrom U) {hr : Nat → Mphf Nat 64} (hh : Spec.RangeHashes hr (TrieProb.asCounts data))
    {c : Emphf K 64} (hc : Spec.EmphfReads c hv) {c' : Emphf Nat 64} (hc' : ∀ k, Spec.EmphfReads c' (hr k)) (hl : Spec.EmphfLocal c)
    (hl' : Spec.EmphfLocal c') {junk : UTable Nat 64}
    (hju : junk.Fits c') {j : Junk (GramsData.fastEF hr c' junk) RanksData.cv} (hj1 : FastEF.Fits c' j.grams) (hj2 : CompactVector.Fits j.ranks)
    (hj3 : j.ptrs.Fits) (header : Byte) :
    ∃ s : TrieProbStore K F (GramsData.fastEF hr c' junk) RanksData.cv,
      TrieProbStore.build fb sort negInf unkWord default hv _ _ ro unk pb bb data = some (.ok s) ∧
      (∀ n < (saveFile header (s.save fb c j bb)).length,
        loadFile (TrieProbStore.load (GramsData.fastEF hr c' junk) RanksData.cv fb c) ((saveFile header (s.save fb c j bb)).take n) = none) ∧
      ∃ s', (∀ more, loadFile (TrieProbStore.load (GramsData.fastEF hr c' junk) RanksData.cv fb c) (saveFile header (s.save fb c j bb) ++ more) =
          some (s', (saveFile header (s.save fb c j bb)).length)) ∧
        ∀ mem : List W, ((s.toModel mem).scorer fb).Le ((s'.toModel mem).scorer fb) := by
  obtain ⟨s, s', h1, h2, h3, -⟩ := C36_backoff_trie_through_a_file fb hsort negInf unkWord default unk h hq hbits hfb hcb hunk hb hh hc hc' hju hj1 hj2 hj3 header
  obtain ⟨k1, k2⟩ := C63_no_proper_beginning_is_loaded
    (Spec.Local.trieProb fb hl (G := GramsData.fastEF hr c' junk) (R := RanksData.cv) (Spec.Local.fastEF hl') Spec.Local.compactVector) h2
  exact ⟨s, h1, k1, s', k2, h3⟩

/-- **C63** (hash-table count models). -/
theorem C63_cut_hash_count {B : Nat} {L : SortLib} (hL : L.Valid) {mem extra : Nat} {files : List (List (List (List Byte) × Nat))}
    (h : Spec.CountLists mem files) (hB : B = 64 ∨ (B = 32 ∧ ∀ f ∈ files, f.length < 2 ^ 26)) (hn : ∀ f ∈ files, f.length < 2 ^ 57)
    {hs : Nat → Mphf (List Byte) B}
    (hb : ∀ (k : Nat) (f : List (List (List Byte) × Nat)), files[k]? = some f → (hs k).BuiltFrom (f.map fun r => joinSp r.1))
    {c : Emphf (List Byte) B} (hc : ∀ k, Spec.EmphfReads c (hs k)) (hl : Spec.EmphfLocal c) (header : Byte) :
    ∃ m, MphCount.build L mem extra hs (Spec.lines files) = some (.ok m) ∧
      (∀ n < (saveFile header (m.save c)).length, loadFile (MphCount.load c) ((saveFile header (m.save c)).take n) = none) ∧
      ∀ more, loadFile (MphCount.load c) (saveFile header (m.save c) ++ more) = some (m, (saveFile header (m.save c)).length) := by
  obtain ⟨m, h1, h2, -⟩ := C36_hash_count_through_a_file (extra := extra) hL h hB hn hb hc header
  exact ⟨m, h1, C63_no_proper_beginning_is_loaded (Spec.Local.mphCount hl) h2⟩

/-- **C63** (hash-table backoff models). -/
theorem C63_cut_hash_backoff {F : Type} [FloatArith F] {B : Nat} (fb : FloatBits F) {sort : List F → List F}
    (hsort : ∀ l, (sort l).Perm l ∧ (sort l).Pairwise (· ≤ ·)) (negInf default unk : F) {mem pb bb : Nat} (extra : Nat)
    {hs : Nat → Mphf (List Byte) B} {data : List (List (List (List Byte) × F × F))} (h : Spec.MphProbInput fb mem pb bb hs data)
    (hn : ∀ f ∈ data, f.length < 2 ^ 57) (hcb : ∀ ps bs, Quant.codebooks sort negInf pb bb data = some (.ok (ps, bs)) → ∀ l ∈ ps ++ bs, ∀ x ∈ l, Spec.IsFloat fb x)
    (hunk : Spec.IsFloat fb (Spec.unkProb Spec.unkText default (data.getD 0 []) unk))
    {c : Emphf (List Byte) B} (hc : ∀ k, Spec.EmphfReads c (hs k)) (hl : Spec.EmphfLocal c) (header : Byte) :
    ∃ m, MphProb.build fb sort negInf default unk mem extra hs pb bb (Spec.lines data) = some (.ok m) ∧
      (∀ n < (saveFile header (m.save fb c bb)).length, loadFile (MphProb.load fb c) ((saveFile header (m.save fb c bb)).take n) = none) ∧
      ∀ more, loadFile (MphProb.load fb c) (saveFile header (m.save fb c bb) ++ more) = some (m, (saveFile header (m.save fb c bb)).length) := by
  obtain ⟨m, qp, qb, h1, h2, -⟩ := C36_hash_backoff_through_a_file fb hsort negInf default unk extra h hn hcb hunk hc header
  exact ⟨m, h1, C63_no_proper_beginning_is_loaded (Spec.Local.mphProb fb hl) h2⟩

/-- **C63** (count tries over `uniform_pef_sequence`, with any encoding of the ranks). -/
theorem C63_cut_pef_count_trie {K : Type} [DecidableEq K] {L : SortLib} (hL : L.Valid) {U : List K}
    {files : List (List (List K × Nat))} {ro : Nat} (h : Spec.CountFiles U files ro) (hp : Spec.PefFiles U files ro)
    {hv : Mphf K 64} (hb : hv.BuiltFrom U) {c : Emphf K 64} (hc : Spec.EmphfReads c hv) (hl : Spec.EmphfLocal c)
    {junkU junkD junkU' junkD' : Nat → List W} (hu : ∀ k, junkU k ≠ []) (hj : ∀ k, junkD k ≠ []) (hu' : ∀ k, junkU' k ≠ []) (hj' : ∀ k, junkD' k ≠ [])
    (pr : PefRanks) (hpr : ∀ f ∈ files, f.length < pr.maxLines) {ji : ICSeq} {je jp : EF} (hji : ji.Fits) (hje : je.Fits) (hjp : jp.Fits) (header : Byte) :
    ∃ t, StCount.build L hv (GramsSt.pef junkU junkD) (pr.stored junkU junkD) ro files = some (.ok t) ∧
      ∃ file, file = saveFile header (t.save (GramsFile.pef junkU junkD) (pr.file junkU junkD ji je) jp c) ∧
        (∀ n < file.length, loadFile (StCount.load (GramsFile.pef junkU' junkD') (pr.file junkU' junkD' ji je) c) (file.take n) = none) ∧
        ∃ t2, (∀ more, loadFile (StCount.load (GramsFile.pef junkU' junkD') (pr.file junkU' junkD' ji je) c) (file ++ more) = some (t2, file.length)) ∧
          ∀ after : List (List K × Nat), (∀ p ∈ after, ∃ f ∈ files, p ∈ f) → ∃ t3, t2.lookups (after.map (·.1)) = some (after.map (·.2), t3) := by
  obtain ⟨t, h1, h2⟩ := C36_pef_trie_count_through_a_file hL h hp hb hc hu hj hu' hj' pr hpr hji hje hjp header
  obtain ⟨t1, -, k2, t2, k3, -, k5⟩ := h2 [] (fun p hp => by cases hp)
  rw [k2] at k3
  obtain ⟨l1, l2⟩ := C63_no_proper_beginning_is_loaded
    (Spec.Local.stCount hl (Fg := GramsFile.pef junkU' junkD') (fun k => Spec.Local.pefObj _ _) (Spec.Local.pefRanks junkU' junkD' ji je pr)) k3
  exact ⟨t, h1, _, rfl, l1, t2, l2, fun after ha => k5 after fun p hp => .inl (ha p hp)⟩

/-- **C63** (backoff tries over `uniform_pef_sequence`). -/
theorem C63_cut_pef_backoff_trie {K V : Type} [DecidableEq K] [FloatArith V]
    (fb : FloatBits V) {sort : List V → List V} (hsort : ∀ l, (sort l).Perm l ∧ (sort l).Pairwise (· ≤ ·))
    (negInf : V) (unkWord : K) (default unk : V) {U : List K} {data : List (List (List K × V × V))} {ro pb bb : Nat}
    (h : Spec.ProbFiles U data ro) (hp : Spec.PefFiles U (TrieProb.asCounts data) ro) (hq : Spec.Quantisable data pb bb) (hbits : pb + bb ≤ 58)
    (hfb : ∀ f0, data[0]? = some f0 → ∀ r ∈ f0, fb.dec (fb.enc r.2.1) = r.2.1 ∧ fb.dec (fb.enc r.2.2) = r.2.2)
    (hcb : ∀ ps bs, Quant.codebooks sort negInf pb bb data = some (.ok (ps, bs)) → ∀ l ∈ ps ++ bs, ∀ x ∈ l, Spec.IsFloat fb x)
    (hunk : Spec.IsFloat fb (Spec.unkProb unkWord default (data.getD 0 []) unk))
    {hv : Mphf K 64} (hb : hv.BuiltFrom U) {c : Emphf K 64} (hc : Spec.EmphfReads c hv) (hl : Spec.EmphfLocal c)
    {junkU junkD junk junkU' junkD' junk' : Nat → List W} (hu : ∀ k, junkU k ≠ []) (hjd : ∀ k, junkD k ≠ []) (hj : ∀ k, junk k ≠ [])
    (hu' : ∀ k, junkU' k ≠ []) (hjd' : ∀ k, junkD' k ≠ []) (hj' : ∀ k, junk' k ≠ []) {jr : CompactVector} {jp : EF} (hjr : jr.Fits) (hjp : jp.Fits)
    (header : Byte) :
    ∃ t, StProb.build fb sort negInf unkWord default hv (GramsSt.pef junkU junkD) (RanksData.cv.st junk) ro unk pb bb data = some (.ok t) ∧
      ∃ file, file = saveFile header (t.save (GramsFile.pef junkU junkD) (RanksFile.data RanksData.cv junk jr) jp fb c bb) ∧
        (∀ n < file.length, loadFile (StProb.load (GramsFile.pef junkU' junkD') (RanksFile.data RanksData.cv junk' jr) fb c) (file.take n) = none) ∧
        ∃ t2, ∀ more, loadFile (StProb.load (GramsFile.pef junkU' junkD') (RanksFile.data RanksData.cv junk' jr) fb c) (file ++ more) = some (t2, file.length) := by
  obtain ⟨t, qp, qb, h1, -, h2⟩ := C36_pef_trie_prob_through_a_file fb hsort negInf unkWord default unk h hp hq hbits hfb hcb hunk hb hc hu hjd hj hu' hjd' hj' hjr hjp header
  obtain ⟨t1, -, k2, t2, k3, -⟩ := h2 0 [] 0 0 (fun o ho => by cases ho) trivial
  rw [k2] at k3
  obtain ⟨l1, l2⟩ := C63_no_proper_beginning_is_loaded
    (Spec.Local.stProb fb hl (Fg := GramsFile.pef junkU' junkD') (Fr := RanksFile.data RanksData.cv junk' jr) (fun k => Spec.Local.pefObj _ _)
      (fun k => Spec.Local.bind (f := fun d => Rd.ret (some (junk' k, d))) Spec.Local.compactVector fun _ => Spec.Local.ret _)) k3
  exact ⟨t, h1, _, rfl, l1, t2, l2⟩

/-! ## Concrete cases -/

namespace CutExample
open FilesExample SaveExample EndExample TrieProbExample TrieCountExample PefTrieExample PefSaveExample

theorem codec_local : Spec.EmphfLocal codec :=
  ⟨.bind (f := fun b => Rd.ret (if b = 0 then FastEF.exMphf.hasher else MphExample.hasher)) (.getU 1) fun _ => .ret _, .getVec (.getU 1)⟩

theorem codecOf_local {K : Type} {B : Nat} (fs : List (K → BitVec B × BitVec B × BitVec B)) : Spec.EmphfLocal (codecOf fs) :=
  ⟨.bind (f := fun b => Rd.ret (fs.getD b fun _ => (0, 0, 0))) (.getU 1) fun _ => .ret _, .getVec (.getU 1)⟩

/-- The hypotheses are met by the count files of C44's example. -/
example := C63_cut_count_trie exLib_valid files_trie (TextExample.built3 (keys := U) rfl (by decide)) files_hashes .ic (by simp) voc_read ranges_read
  (codecOf_local _) codec_local junk_fits
  (j := SaveExample.junk CountRanks.ic.data icJunk _) (fef_fits [1, 2] (by decide) (by decide))
  (by show ICSeq.Fits _; simp [SaveExample.junk, icJunk, ICSeq.Fits, BitVector.Fits, DArray.Fits, DArray.empty]) (junk_ptrs _ _ _) 7#8

example := C63_cut_hash_count exLib_valid (extra := 0) MphCountExample.files_ok (.inl rfl) (by decide) MphCountExample.hs_built hs_read (codecOf_local _) 7#8

example := C63_cut_backoff_trie fb8 sortQ_ok (-1000) unkBytes (-100) (-100) MphProbExample.data_trie MphProbExample.data_input.quant (by decide) input8.floats codes8 unk8
  (TextExample.built3 (keys := U) rfl (by decide)) MphProbExample.data_hashes voc_read ranges_read (codecOf_local _) codec_local junk_fits
  (j := SaveExample.junk RanksData.cv cvJunk _) (fef_fits [1, 2] (by decide) (by decide)) ⟨by decide, by decide, by decide⟩ (junk_ptrs _ _ _) 7#8

example := C63_cut_hash_backoff fb8 sortQ_ok (-1000) (-100) (-100) 0 input8
  (by intro f hf; simp [MphProbExample.data] at hf; rcases hf with rfl | rfl | rfl <;> simp) codes8 unk8 hs_read' (codecOf_local _) 7#8

example := C63_cut_pef_count_trie exLib_valid (files4_ok 2 (by omega)) files4_pef MphExample.built PefSaveExample.voc_read codec_local
  (junkU := fun _ => [7]) (junkD := fun _ => [9]) (junkU' := fun _ => [1, 5]) (junkD' := fun _ => [3]) (by simp) (by simp) (by simp) (by simp)
  (.pspef true) (by simp [files4, PefRanks.maxLines]) ic_fits SaveExample.ptrs_fits SaveExample.ptrs_fits 9#8

open PefProbExample in
example := C63_cut_pef_backoff_trie EndExample.fb8 sortQ_ok (-1000) 9 (-100) (-100)
    (dataP_ok 0 (by omega)) (dataP_pef 0 (by omega)) dataP_quant (by decide)
    (by
      intro f0 hf r hr
      simp [dataP] at hf; subst hf
      simp at hr
      rcases hr with rfl | rfl | rfl <;> exact ⟨by decide +kernel, by decide +kernel⟩)
    codesP (EndExample.fb8_ok (by simp [Spec.unkProb, dataP])) MphExample.built PefSaveExample.voc_read codec_local
    (junkU := fun _ => [7]) (junkD := fun _ => [9]) (junk := fun _ => [0#64]) (junkU' := fun _ => [1, 5]) (junkD' := fun _ => [3])
    (junk' := fun _ => [4#64]) (by simp) (by simp) (by simp) (by simp) (by simp) (by simp)
    (jr := SaveExample.cvJunk) (by simp [SaveExample.cvJunk, CompactVector.Fits]) SaveExample.ptrs_fits 9#8

end CutExample

end Tongrams
