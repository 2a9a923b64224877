import Verif.Repro

/-!
C72: the builders when the memory is too small for the n-grams of an order (mph_count_lm.hpp:39-65, mph_prob_lm.hpp:66-105, pools.hpp).  No new code is
modelled here: the pools of Pools.lean have the size `mem` (80% of the memory of the machine), and the theorems of the other files ask that every order fits.
-/

set_option linter.unusedSectionVars false

namespace Tongrams

namespace LittleMemory

theorem mapM_error {α β : Type} {f : α → Res β} : ∀ {l : List α}, (∀ a ∈ l, (∃ b, f a = some (.ok b)) ∨ f a = some (.error ())) →
    (∃ a ∈ l, f a = some (.error ())) → Res.mapM f l = some (.error ()) := by
  intro l
  induction l with
  | nil => rintro - ⟨a, h, -⟩; cases h
  | cons a l ih =>
    intro h1 h2
    rw [Res.mapM]
    rcases h1 a List.mem_cons_self with ⟨b, hb⟩ | he
    · obtain ⟨x, hx, ex⟩ := h2
      rcases List.mem_cons.1 hx with rfl | hx
      · rw [hb] at ex; cases ex
      · rw [hb, Res.bind_ok, ih (fun y hy => h1 y (List.mem_cons_of_mem _ hy)) ⟨x, hx, ex⟩]; rfl
    · rw [he]; rfl

variable {B : Nat}

theorem mapM_none {α β : Type} {f : α → Option β} : ∀ {l : List α}, (∃ a ∈ l, f a = none) → Res.mapM (fun a => Res.lift (f a)) l = none := by
  intro l
  induction l with
  | nil => rintro ⟨a, h, -⟩; cases h
  | cons a l ih =>
    rintro ⟨x, hx, ex⟩
    rw [Res.mapM]
    cases e : f a with
    | none => rfl
    | some b =>
      rcases List.mem_cons.1 hx with rfl | hx
      · rw [ex] at e; cases e
      · rw [show Res.lift (some b) = some (.ok b) from rfl, Res.bind_ok, ih ⟨x, hx, ex⟩]; rfl

theorem text_files {L : SortLib} {big mem extra : Nat} {files : List (List (List (List Byte) × Nat))}
    (h : Spec.CountLists big files) (hw : ∀ f ∈ files, ∀ r ∈ f, ∀ w ∈ r.1, Spec.FileWord w) (hn : ∀ f ∈ files, f.length < 2 ^ 57)
    (hs : Nat → Mphf (List Byte) B) : MphCount.buildFiles L mem extra hs (files.map Spec.gramsText) = MphCount.build L mem extra hs (Spec.lines files) := by
  unfold MphCount.buildFiles
  rw [Res.mapM_map_ok (h := fun f => f.map fun r => (joinSp r.1, BitVec.ofNat 64 r.2)) fun f hf =>
    readGrams_text (h.nonempty f hf) (by have := hn f hf; omega) (hw f hf), Res.bind_ok]
  congr 1
  unfold Spec.lines
  rw [List.map_map]
  apply List.map_congr_left
  intro f hf
  rw [Function.comp, List.map_map]
  apply List.map_congr_left
  intro r hr
  rw [Function.comp, BitVec.toNat_ofNat, Nat.mod_eq_of_lt (Nat.lt_of_lt_of_le (h.counts f hf r hr) (Nat.sub_le _ _))]

theorem buildTable_error {mem extra : Nat} {h : Mphf (List Byte) B} {c : CompactVector × List (Nat × Nat)} {file : List (List Byte × Nat)}
    (hm : mem < (file.map (·.1.length)).sum) : MphCount.buildTable mem extra h c file = some (.error ()) := by
  unfold MphCount.buildTable
  rw [(C40_load_from mem extra file).2 hm]
  rfl

theorem build_error {L : SortLib} (hL : L.Valid) {big mem extra : Nat} {files : List (List (List (List Byte) × Nat))}
    (h : Spec.CountLists big files) (hB : B = 64 ∨ (B = 32 ∧ ∀ f ∈ files, f.length < 2 ^ 26)) (hn : ∀ f ∈ files, f.length < 2 ^ 57)
    {hs : Nat → Mphf (List Byte) B}
    (hb : ∀ (k : Nat) (f : List (List (List Byte) × Nat)), files[k]? = some f → (hs k).BuiltFrom (f.map fun r => joinSp r.1))
    (ho : ∃ f ∈ files, mem < (f.map fun r => (joinSp r.1).length).sum) :
    MphCount.build L mem extra hs (Spec.lines files) = some (.error ()) := by
  have hl : (Spec.lines files).length = files.length := by simp [Spec.lines]
  have hat : ∀ (k : Nat) g, (Spec.lines files)[k]? = some g → ∃ f, files[k]? = some f ∧ g = f.map fun r => (joinSp r.1, r.2) := by
    intro k g hg
    unfold Spec.lines at hg
    rw [List.getElem?_map] at hg
    obtain ⟨f, h1, h2⟩ := Option.map_eq_some_iff.1 hg
    exact ⟨f, h1, h2.symm⟩
  have hlev : ∀ (k : Nat) g (m : Nat), (Spec.lines files)[k]? = some g → (g.map (·.1.length)).sum ≤ m →
      ∃ c t, SeqColl.ofValues L (g.map (·.2)) = some c ∧ MphCount.buildTable m extra (hs k) c g = some (.ok t) := by
    intro k g m hg hm
    obtain ⟨f, hf, rfl⟩ := hat k g hg
    have hfm := List.mem_of_getElem? hf
    obtain ⟨c, t, h1, h2, -⟩ := MphCount.buildTable_ok hL (mem := m) (extra := extra) (h := hs k) (file := f.map fun r => (joinSp r.1, r.2))
      (by simpa using h.nonempty f hfm) (by
        intro r hr
        obtain ⟨q, hq, rfl⟩ := List.mem_map.1 hr
        refine joinSp_ne_nil ?_ fun w hw => (h.words f hfm q hq w hw).2
        intro h0
        have := h.len k f hf q hq
        rw [h0] at this
        simp at this) (by
        intro r hr
        obtain ⟨q, hq, rfl⟩ := List.mem_map.1 hr
        exact h.counts f hfm q hq) hm (by rw [List.map_map]; exact hb k f hf) (by
        rcases hB with h | ⟨h, h'⟩
        · exact .inl h
        · exact .inr ⟨h, by simpa using h' f hfm⟩) (by simpa using hn f hfm)
    exact ⟨c, t, h1, h2⟩
  have hbig : ∀ (k : Nat) g, (Spec.lines files)[k]? = some g → (g.map (·.1.length)).sum ≤ big := by
    intro k g hg
    obtain ⟨f, hf, rfl⟩ := hat k g hg
    rw [List.map_map]; exact h.memory f (List.mem_of_getElem? hf)
  obtain ⟨colls, c1, c2, c3⟩ := Res.mapM_get (f := fun f : List (List Byte × Nat) => Res.lift (SeqColl.ofValues L (f.map (·.2)))) (l := Spec.lines files)
    (P := fun _ g c => SeqColl.ofValues L (g.map (·.2)) = some c) (by
      intro k g hg
      obtain ⟨c, t, h1, -⟩ := hlev k g big hg (hbig k g hg)
      exact ⟨c, by rw [h1]; rfl, h1⟩)
  have hts : Res.mapM (fun p : (List (List Byte × Nat) × (CompactVector × List (Nat × Nat))) × Nat => MphCount.buildTable mem extra (hs p.2) p.1.2 p.1.1)
      ((Spec.lines files).zip colls).zipIdx = some (.error ()) := by
    apply mapM_error
    · intro p hp
      obtain ⟨k, hk⟩ := List.getElem?_of_mem hp
      rw [List.getElem?_zipIdx, Nat.zero_add] at hk
      obtain ⟨⟨g, c⟩, h1, rfl⟩ := Option.map_eq_some_iff.1 hk
      obtain ⟨h2, h3⟩ := List.getElem?_zip_eq_some.1 h1
      by_cases hm : (g.map (·.1.length)).sum ≤ mem
      · obtain ⟨c', t, h4, h5⟩ := hlev k g mem h2 hm
        rw [c3 k g c h2 h3] at h4; cases h4
        exact .inl ⟨t, h5⟩
      · exact .inr (buildTable_error (Nat.lt_of_not_le hm))
    · obtain ⟨f, hf, hm⟩ := ho
      obtain ⟨k, hk, rfl⟩ := List.mem_iff_getElem.1 hf
      have hgk : (Spec.lines files)[k]? = some (files[k].map fun r => (joinSp r.1, r.2)) := by
        unfold Spec.lines; rw [List.getElem?_map, List.getElem?_eq_getElem hk]; rfl
      have hck : colls[k]? = some (colls[k]'(by omega)) := List.getElem?_eq_getElem _
      refine ⟨((_, _), k), List.mem_of_getElem? (i := k) (by
        rw [List.getElem?_zipIdx, Nat.zero_add, (List.getElem?_zip_eq_some (z := (_, _))).2 ⟨hgk, hck⟩]; rfl), buildTable_error ?_⟩
      rw [List.map_map]; exact hm
  unfold MphCount.build
  have h1 := h.order_min
  have h2 := h.order_max
  rw [if_neg (by rw [hl]; unfold maxOrder; omega), c1, Res.bind_ok, hts]
  rfl

/-- The pool keeps fewer records if they do not all fit. -/
theorem pool_kept {V : Type} (mem : Nat) : ∀ (recs : List (List Byte × V)) (held : List (List Byte × V)), (held.map (·.1.length)).sum ≤ mem →
    (Spec.pool mem held (recs.map fun r => Pool.Op.append r.1 r.2)).2.length ≤ held.length + recs.length ∧
    (mem < (held.map (·.1.length)).sum + (recs.map (·.1.length)).sum →
      (Spec.pool mem held (recs.map fun r => Pool.Op.append r.1 r.2)).2.length < held.length + recs.length) := by
  intro recs
  induction recs with
  | nil =>
    intro held hh
    refine ⟨Nat.le_refl _, fun h => ?_⟩
    simp at h; omega
  | cons r recs ih =>
    intro held hh
    obtain ⟨g, v⟩ := r
    rw [List.map_cons, Spec.pool, List.map_cons, List.sum_cons, List.length_cons]
    by_cases hg : g = []
    · have := ih held hh
      rw [if_pos hg]
      simp only
      exact ⟨by omega, fun _ => by omega⟩
    · rw [if_neg hg]
      by_cases hle : (held.map (·.1.length)).sum + g.length ≤ mem
      · have hs : ((held ++ [(g, v)]).map (·.1.length)).sum = (held.map (·.1.length)).sum + g.length := by simp
        have := ih (held ++ [(g, v)]) (by rw [hs]; exact hle)
        rw [hs, List.length_append, List.length_singleton] at this
        rw [if_pos hle]
        simp only
        exact ⟨by omega, fun h => by have := this.2 (by omega); omega⟩
      · have := ih held hh
        rw [if_neg hle]
        simp only
        exact ⟨by omega, fun _ => by omega⟩

theorem poolOf_short {V : Type} {mem extra : Nat} {recs index : List (List Byte × V)} (hm : mem < (recs.map (·.1.length)).sum)
    (h : poolOf mem extra recs = some index) : index.length < recs.length := by
  unfold poolOf at h
  obtain ⟨p, h1, h2, -⟩ := C40_pool_contents mem extra (recs.map fun r => Pool.Op.append r.1 r.2)
  rw [h1, Option.map_some] at h
  cases h
  rw [h2]
  have := (pool_kept mem recs [] (by simp)).2 (by simpa using hm)
  simpa using this

theorem fill_none (h : Mphf (List Byte) B) : ∀ (keys : List (List Byte)) (vs : List W) (c : HCV B), keys.length < vs.length → SVTable.fill h keys vs c = none := by
  intro keys
  induction keys with
  | nil =>
    intro vs c hl
    cases vs with
    | nil => simp at hl
    | cons v vs => rfl
  | cons k ks ih =>
    intro vs c hl
    cases vs with
    | nil => simp at hl
    | cons v vs =>
      rw [SVTable.fill]
      cases (h.lookupHashes (h.hasher k)).bind fun pos => c.set pos (Mphf.mix (h.hasher k)) v with
      | none => rfl
      | some c => exact ih vs c (by simpa using hl)

theorem fill_size : ∀ (vs : List W) {b b' : CVBuilder}, b.fill vs = some b' → b'.size = b.size := by
  intro vs
  induction vs with
  | nil => intro b b' h; cases h; rfl
  | cons v vs ih =>
    intro b b' h
    obtain ⟨c, h1, h2⟩ := Option.bind_eq_some_iff.1 h
    rw [ih h2]; exact (CVBuilder.pushBack_sizes h1).1

theorem take_length {cv : CompactVector} : ∀ {n : Nat} {it : CompactVector.Iter} {vs : List W}, CompactVector.Iter.take cv n it = some vs → vs.length = n := by
  intro n
  induction n with
  | zero => intro it vs h; cases h; rfl
  | succ n ih =>
    intro it vs h
    obtain ⟨x, -, h⟩ := Option.bind_eq_some_iff.1 h
    obtain ⟨us, e, h⟩ := Option.bind_eq_some_iff.1 h
    cases h
    rw [List.length_cons, ih e]

theorem toList_length {cv : CompactVector} {vs : List W} (h : cv.toList = some vs) : vs.length = cv.size := by
  unfold CompactVector.toList at h
  exact take_length h

theorem tableOf_none {V : Type} {h : Mphf (List Byte) B} {width n : Nat} {value : V → Option W} {index : List (List Byte × V)} (hl : index.length < n) :
    tableOf h width n value index = none := by
  cases e : tableOf h width n value index with
  | none => rfl
  | some t =>
    unfold tableOf at e
    obtain ⟨b, e1, e⟩ := Option.bind_eq_some_iff.1 e
    obtain ⟨vs, e2, e⟩ := Option.bind_eq_some_iff.1 e
    obtain ⟨b', e3, e⟩ := Option.bind_eq_some_iff.1 e
    unfold SVTable.build at e
    obtain ⟨c, e4, e⟩ := Option.bind_eq_some_iff.1 e
    obtain ⟨us, e5, e⟩ := Option.bind_eq_some_iff.1 e
    have hb : b.size = n := by
      unfold CVBuilder.new at e1
      simp only at e1
      generalize (if width = 0 then width + 1 else width) = w' at e1
      by_cases hw : w' > 64
      · rw [if_pos hw] at e1; cases e1
      · rw [if_neg hw] at e1; cases e1; rfl
    have hu : us.length = n := by
      rw [toList_length e5]
      show b'.size = n
      rw [fill_size _ e3, hb]
    rw [fill_none _ _ _ _ (by rw [List.length_map, hu]; exact hl)] at e
    cases e

variable {F : Type} [FloatArith F]

theorem vocabulary_none {fb : FloatBits F} {mem extra : Nat} {h : Mphf (List Byte) B} {f : List (List Byte × F × F)}
    (hm : mem < (f.map (·.1.length)).sum) : MphProb.buildVocabulary fb mem extra h f = none := by
  unfold MphProb.buildVocabulary
  cases e : poolOf mem extra f with
  | none => rfl
  | some index => rw [Option.bind_some]; exact tableOf_none (poolOf_short hm e)

theorem table_none {mem extra : Nat} {h : Mphf (List Byte) B} {ps bs : List (List F)} {pb bb order k : Nat} {f : List (List Byte × F × F)}
    (hm : mem < (f.map (·.1.length)).sum) : MphProb.buildTable mem extra h ps bs pb bb order k f = none := by
  unfold MphProb.buildTable
  cases e : poolOf mem extra f with
  | none => rfl
  | some index => rw [Option.bind_some]; exact tableOf_none (poolOf_short hm e)

end LittleMemory

open LittleMemory in
/-- C72: whatever the size `mem` of the pools, the builder of a hash count model either makes the model of all n-grams of the files, or throws: it throws exactly if
the n-grams of some order have more than `mem` bytes. -/
theorem C72_hash_counts {B : Nat} {L : SortLib} (hL : L.Valid) {big extra : Nat} (mem : Nat) {files : List (List (List (List Byte) × Nat))}
    (h : Spec.CountLists big files) (hw : ∀ f ∈ files, ∀ r ∈ f, ∀ w ∈ r.1, Spec.FileWord w)
    (hB : B = 64 ∨ (B = 32 ∧ ∀ f ∈ files, f.length < 2 ^ 26)) (hn : ∀ f ∈ files, f.length < 2 ^ 57) {hs : Nat → Mphf (List Byte) B}
    (hb : ∀ (k : Nat) (f : List (List (List Byte) × Nat)), files[k]? = some f → (hs k).BuiltFrom (f.map fun r => joinSp r.1)) :
    ((∀ f ∈ files, (f.map fun r => (joinSp r.1).length).sum ≤ mem) → ∃ m, MphCount.buildFiles L mem extra hs (files.map Spec.gramsText) = some (.ok m) ∧
      ∀ f ∈ files, ∀ gram count, (gram, count) ∈ f → m.lookup (joinSp gram) = some count) ∧
    ((∃ f ∈ files, mem < (f.map fun r => (joinSp r.1).length).sum) → MphCount.buildFiles L mem extra hs (files.map Spec.gramsText) = some (.error ())) := by
  constructor
  · intro hm
    exact C44_mph_count_files_to_answers hL { h with memory := hm } hw hB hn hb
  · intro ho
    rw [text_files h hw hn]
    exact build_error hL h hB hn hb ho

section
variable {F : Type} [FloatArith F]
open Tools LittleMemory

/-- C72: `build_hash` with the value type `count` writes no file if the n-grams of some order do not fit in the memory of the machine. -/
theorem C72_build_hash_writes_nothing (E : ToolEnv F) (hL : E.L.Valid) (a : HashCommand F) (ha : Spec.ValidHashArgs a.choice)
    (hv : a.choice.value = "count") (hun : ∀ u ∈ a.unk, u < 0) {big : Nat} {files : List (List (List (List Byte) × Nat))} (ho : a.order = files.length)
    (h : Spec.CountLists big files) (hw : ∀ f ∈ files, ∀ r ∈ f, ∀ w ∈ r.1, Spec.FileWord w)
    (hn : ∀ f ∈ files, f.length < if a.choice.hashKeyBytes = 4 then 2 ^ 26 else 2 ^ 57)
    (hb : Spec.HashesBuilt E a.choice.hashKeyBytes (files.map (·.map fun r => joinSp r.1)))
    (hm : ∃ f ∈ files, E.mem < (f.map fun r => (joinSp r.1).length).sum)
    {folder : List (List Byte)} (hf : folder.take files.length = files.map Spec.gramsText) (arpa : Option (List Byte)) :
    buildHash E a folder arpa = some (.error ()) := by
  obtain ⟨header, c1, -⟩ := C35_hash_header a.choice ha
  have hlen0 : files.length ≤ folder.length := by
    have := congrArg List.length hf
    rw [List.length_take, List.length_map] at this
    omega
  have hord := h.order_min
  have hord' := h.order_max
  have ht : Spec.hashType a.choice = .mphCount (8 * a.choice.hashKeyBytes) := by unfold Spec.hashType; rw [if_pos hv]
  have hb' : ∀ (k : Nat) (f : List (List (List Byte) × Nat)), files[k]? = some f →
      if a.choice.hashKeyBytes = 4 then (E.hs32 k).BuiltFrom (f.map fun r => joinSp r.1) else (E.hs64 k).BuiltFrom (f.map fun r => joinSp r.1) := by
    intro k f hk
    exact hb.1 k _ (by rw [List.getElem?_map, hk]; rfl)
  have hbody : E.countBody 0 (files.map Spec.gramsText) (.mphCount (8 * a.choice.hashKeyBytes)) = some (.error ()) := by
    rcases ha.hashKeyBytes with h4 | h8
    · simp only [h4, if_true] at hb' hn ⊢
      have hn' : ∀ f ∈ files, f.length < 2 ^ 57 := fun f hf => by have := hn f hf; omega
      unfold ToolEnv.countBody
      simp only
      rw [if_pos (by decide), (C72_hash_counts hL E.mem h hw (.inr ⟨rfl, hn⟩) hn' hb').2 hm]
      rfl
    · have h84 : ¬ (8 : Nat) = 4 := by decide
      simp only [h8, if_neg h84] at hb' hn ⊢
      unfold ToolEnv.countBody
      simp only
      rw [if_neg (by decide), if_pos (by decide), (C72_hash_counts hL E.mem h hw (.inl rfl) hn hb').2 hm]
      rfl
  unfold buildHash
  rw [ho, checkOrder_ok hord hord', Res.bind_ok, checkUnk_ok hun, Res.bind_ok, c1, Res.bind_ok, hv, ht, Nat.mod_eq_of_lt (by omega)]
  unfold ToolEnv.writeFile
  simp only [beq_self_eq_true, if_true]
  unfold gramsFiles
  rw [if_neg (by omega), hf, Res.bind_ok, hbody]
  rfl


/-- Finding: the builder of a hash backoff model does not look at what `append` of the pool answers.  If the n-grams of some order do not fit in the pool, it reads
past the end of the vector of the n-grams that were kept. -/
theorem C72_backoff_builder_defect {B : Nat} {strtod : List Byte → F × Nat} (lead gap : Nat) {sections : List (List (Spec.ArpaLine F) × Nat)}
    {tail : List Byte} (hg : Spec.GoodArpa strtod sections tail) (fb : FloatBits F) {sort : List F → List F}
    (hsort : ∀ l, (sort l).Perm l ∧ (sort l).Pairwise (· ≤ ·)) (negInf default unk : F) {mem extra pb bb : Nat} (hs : Nat → Mphf (List Byte) B)
    {data : List (List (List (List Byte) × F × F))} (hd : Spec.ArpaLists sections data) (h2 : 2 ≤ data.length) (h8 : data.length ≤ 8)
    (hq : Spec.Quantisable data pb bb) (hm : ∃ f ∈ data, mem < (f.map fun r => (joinSp r.1).length).sum) :
    MphProb.buildArpa strtod fb sort negInf default unk mem extra hs pb bb sections.length (Spec.arpaText lead gap sections tail) = none := by
  obtain ⟨ps, bs, hcb, -, -⟩ := Quant.codebooks_ok hsort negInf h2 hq
  unfold MphProb.buildArpa
  rw [arpaSections_ok lead gap hg hd, Res.bind_ok]
  have hl : (Spec.lines data).length = data.length := by simp [Spec.lines]
  unfold MphProb.build
  rw [if_neg (by rw [hl]; unfold maxOrder; omega), MphProb.codebooks_lines, hcb, Res.bind_ok]
  obtain ⟨f0, rest, rfl⟩ : ∃ f0 rest, data = f0 :: rest := by
    cases data with
    | nil => simp at h2
    | cons f0 rest => exact ⟨f0, rest, rfl⟩
  have hlines : Spec.lines (f0 :: rest) = (f0.map fun r => (joinSp r.1, r.2)) :: Spec.lines rest := rfl
  rw [hlines]
  show Res.bind (Res.lift (MphProb.buildVocabulary fb mem extra (hs 0) (f0.map fun r => (joinSp r.1, r.2)))) _ = none
  cases e : MphProb.buildVocabulary fb mem extra (hs 0) (f0.map fun r => (joinSp r.1, r.2)) with
  | none => rfl
  | some t0 =>
    rw [show Res.lift (some t0) = some (.ok t0) from rfl, Res.bind_ok]
    obtain ⟨f, hf, hm⟩ := hm
    rcases List.mem_cons.1 hf with rfl | hf
    · rw [vocabulary_none (by rw [List.map_map]; exact hm)] at e; cases e
    · rw [List.tail_cons, mapM_none]
      · rfl
      · obtain ⟨k, hk, rfl⟩ := List.mem_iff_getElem.1 hf
        refine ⟨((rest[k]).map fun r => (joinSp r.1, r.2), k), List.mem_of_getElem? (i := k) ?_, table_none ?_⟩
        · rw [List.getElem?_zipIdx, Nat.zero_add]
          unfold Spec.lines
          rw [List.getElem?_map, List.getElem?_eq_getElem hk]; rfl
        · rw [List.map_map]; exact hm

end

/-! ## The count tries -/

/-- The builder of a count trie with the pool of `mem` bytes that keeps its unigrams (include/trie_count_lm.hpp:20-91, 119-130): `load_from` throws if they do not
fit.  Simplification: the pool is loaded before the counts are gathered, and the levels are built by `TrieCount.build` from the unigrams kept in the pool. -/
def TrieCount.buildFilesPool (L : SortLib) (hv : Mphf (List Byte) 64) (G : GramsImpl) (R : RanksImpl) (ro mem extra : Nat) (files : List (List Byte)) :
    Res (TrieCount (List Byte)) :=
  Res.bind (Res.mapM readGrams files) fun fs =>
  Res.bind (Res.lift fs.head?) fun f0 =>
  Res.bind ((Pool.new mem extra).loadFrom f0) fun p =>
  Res.bind (Res.lift ((p.records :: fs.tail).mapM fun f => f.mapM fun r => (queryWords r.1).map fun ws => (ws, r.2.toNat))) fun data =>
  TrieCount.build L hv G R ro data

/-- C72: whatever the size `mem` of the pool, the builder of a count trie either makes the model of all n-grams of the files, or throws: it throws exactly if the
unigrams have more than `mem` bytes. -/
theorem C72_trie_counts {L : SortLib} (hL : L.Valid) {U : List (List Byte)} {files : List (List (List (List Byte) × Nat))} {ro : Nat} (mem extra : Nat)
    (h : Spec.CountFiles U files ro) (hw : ∀ f ∈ files, f ≠ [] ∧ ∀ r ∈ f, ∀ w ∈ r.1, Spec.FileWord w)
    {hv : Mphf (List Byte) 64} (hb : hv.BuiltFrom U) {hr : Nat → Mphf Nat 64} (hh : Spec.RangeHashes hr files) (cr : CountRanks)
    (hcr : cr = .psef → ∀ f ∈ files, f.length < 2 ^ 32) :
    ((∀ f0, files[0]? = some f0 → (f0.map fun r => (joinSp r.1).length).sum ≤ mem) →
      ∃ t, TrieCount.buildFilesPool L hv (GramsImpl.fastEF hr) cr.impl ro mem extra (files.map Spec.gramsText) = some (.ok t) ∧
        ∀ f ∈ files, ∀ gram count, (gram, count) ∈ f → t.lookupString (joinSp gram) = some count) ∧
    ((∀ f0, files[0]? = some f0 → mem < (f0.map fun r => (joinSp r.1).length).sum) →
      TrieCount.buildFilesPool L hv (GramsImpl.fastEF hr) cr.impl ro mem extra (files.map Spec.gramsText) = some (.error ())) := by
  have hread : Res.mapM readGrams (files.map Spec.gramsText) =
      some (.ok (files.map fun f => f.map fun r => (joinSp r.1, BitVec.ofNat 64 r.2))) :=
    Res.mapM_map_ok fun f hf => readGrams_text (hw f hf).1 (by have := TrieCount.len_of_size h hf; omega) (hw f hf).2
  obtain ⟨f0, rest, rfl⟩ : ∃ f0 rest, files = f0 :: rest := by
    cases files with
    | nil => have := h.order_min; simp at this
    | cons f0 rest => exact ⟨f0, rest, rfl⟩
  have hsum : ((f0.map fun r => (joinSp r.1, BitVec.ofNat 64 r.2)).map (·.1.length)).sum = (f0.map fun r => (joinSp r.1).length).sum := by
    rw [List.map_map]; rfl
  have hload := C40_load_from mem extra (f0.map fun r => (joinSp r.1, BitVec.ofNat 64 r.2))
  rw [hsum] at hload
  unfold TrieCount.buildFilesPool
  rw [hread, Res.bind_ok, List.map_cons, show Res.lift ((f0.map fun r => (joinSp r.1, BitVec.ofNat 64 r.2)) ::
    rest.map fun f => f.map fun r => (joinSp r.1, BitVec.ofNat 64 r.2)).head? = some (.ok (f0.map fun r => (joinSp r.1, BitVec.ofNat 64 r.2))) from rfl, Res.bind_ok]
  constructor
  · intro hm
    obtain ⟨p, h1, h2⟩ := hload.1 (hm f0 rfl)
    have hne : (f0.map fun r => (joinSp r.1, BitVec.ofNat 64 r.2)).filter (fun l => decide (l.1 ≠ [])) = f0.map fun r => (joinSp r.1, BitVec.ofNat 64 r.2) := by
      rw [List.filter_eq_self]
      intro l hl
      obtain ⟨r, hr0, rfl⟩ := List.mem_map.1 hl
      refine decide_eq_true ?_
      obtain ⟨g1, g2⟩ := files_grams h hw f0 List.mem_cons_self r hr0
      exact joinSp_ne_nil g1 fun w hww => (g2 w hww).1
    rw [hne] at h2
    rw [h1, Res.bind_ok, h2, List.tail_cons]
    obtain ⟨t, e1, e2⟩ := C44_trie_count_files_to_answers hL h hw hb hh cr hcr
    refine ⟨t, ?_, e2⟩
    unfold TrieCount.buildFiles at e1
    rw [hread, Res.bind_ok, List.map_cons] at e1
    exact e1
  · intro hm
    rw [hload.2 (hm f0 rfl)]
    rfl

section
open SaveExample EndExample FilesExample TrieProbExample ToolsExample

/-- Pools of 9 bytes hold the three bigrams "a b", "a c", "b c"; with pools of 8 bytes the builder throws. -/
example : (∃ m, MphCount.buildFiles exLib 9 0 MphCountExample.hs (MphCountExample.files.map Spec.gramsText) = some (.ok m) ∧ m.lookup (str "a c") = some 2) ∧
    MphCount.buildFiles exLib 8 0 MphCountExample.hs (MphCountExample.files.map Spec.gramsText) = some (.error ()) := by
  constructor
  · obtain ⟨m, e1, e2⟩ := (C72_hash_counts exLib_valid (extra := 0) 9 MphCountExample.files_ok (fun f hf => (files_words f hf).2) (.inl rfl) (by decide)
      MphCountExample.hs_built).1 (by decide)
    exact ⟨m, e1, e2 _ (List.mem_of_getElem? (i := 1) rfl) [MphCountExample.w 0, MphCountExample.w 2] 2 (by simp)⟩
  · exact (C72_hash_counts exLib_valid (extra := 0) 8 MphCountExample.files_ok (fun f hf => (files_words f hf).2) (.inl rfl) (by decide)
      MphCountExample.hs_built).2 (by decide)

/-- The trigrams of the example ARPA file have 20 bytes: pools of 19 bytes are too small. -/
example : MphProb.buildArpa strtod fbQ sortQ (-1000) (-100) (-100) 19 0 MphProbExample.hs 2 2 sections.length (Spec.arpaText 0 0 sections [nl]) = none :=
  C72_backoff_builder_defect 0 0 good fbQ sortQ_ok (-1000) (-100) (-100) MphProbExample.hs lists (by decide) (by decide) MphProbExample.data_input.quant
    ⟨_, List.mem_of_getElem? (i := 2) rfl, by decide⟩

/-- `build_hash 2 8 count` on a machine whose pools have 8 bytes. -/
example : buildHash (env MphCountExample.hs (codecOf [(MphCountExample.hs 0).hasher, (MphCountExample.hs 1).hasher, (MphCountExample.hs 2).hasher]) 8)
      ⟨⟨"count", 8⟩, 2, none, none, none⟩ (MphCountExample.files.map Spec.gramsText) none = some (.error ()) :=
  C72_build_hash_writes_nothing (env MphCountExample.hs (codecOf [(MphCountExample.hs 0).hasher, (MphCountExample.hs 1).hasher, (MphCountExample.hs 2).hasher]) 8)
    exLib_valid ⟨⟨"count", 8⟩, 2, none, none, none⟩ ⟨.inl rfl, .inr rfl⟩ rfl (by simp) (files := MphCountExample.files) (by decide) MphCountExample.files_ok
    (fun f hf => (files_words f hf).2) (by decide)
    ⟨fun k f hk => by
      rw [List.getElem?_map] at hk
      obtain ⟨f', h1, rfl⟩ := Option.map_eq_some_iff.1 hk
      exact MphCountExample.hs_built k f' h1, hs_read⟩ ⟨_, List.mem_of_getElem? (i := 1) rfl, by decide⟩ (folder := MphCountExample.files.map Spec.gramsText) (by rfl) none

/-- The unigrams "a", "b", "c" need pools of 3 bytes. -/
example : (∃ t, TrieCount.buildFilesPool exLib (TextExample.mphf3 U) (GramsImpl.fastEF fun _ => FastEF.exMphf) RanksImpl.ic 0 3 0
      (MphCountExample.files.map Spec.gramsText) = some (.ok t) ∧ t.lookupString (str "a c") = some 2) ∧
    TrieCount.buildFilesPool exLib (TextExample.mphf3 U) (GramsImpl.fastEF fun _ => FastEF.exMphf) RanksImpl.ic 0 2 0
      (MphCountExample.files.map Spec.gramsText) = some (.error ()) := by
  constructor
  · obtain ⟨t, e1, e2⟩ := (C72_trie_counts exLib_valid 3 0 files_trie files_words (TextExample.built3 (keys := U) rfl (by decide)) files_hashes .ic (by simp)).1
      (by intro f0 h0; cases h0; decide)
    exact ⟨t, e1, e2 _ (List.mem_of_getElem? (i := 1) rfl) [MphCountExample.w 0, MphCountExample.w 2] 2 (by simp)⟩
  · exact (C72_trie_counts exLib_valid 2 0 files_trie files_words (TextExample.built3 (keys := U) rfl (by decide)) files_hashes .ic (by simp)).2
      (by intro f0 h0; cases h0; decide)

end

end Tongrams
