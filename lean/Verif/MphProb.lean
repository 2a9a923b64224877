import Verif.MphCount

/-!
# C28, C30: `mph_prob_lm` (mph_prob_lm.hpp)

The text being scored is a memory `text`; a word is a byte range of it, and the state keeps the positions where words begin.  A longer n-gram is
looked up as the range from the beginning of an earlier word to the end of the current one (mph_prob_lm.hpp:213-217).
-/

set_option linter.unusedSectionVars false

namespace Tongrams

/-- `mph_prob_lm`, members: mph_prob_lm.hpp:297-301. -/
structure MphProb (F : Type) (B : Nat) where
  order : Nat
  unk : F
  ps : List (List F)
  bs : List (List F)
  pb : Nat
  tables : List (SVTable (List Byte) B)

/-- The bytes of `<unk>` (mph_prob_lm.hpp:152). -/
def unkBytes : List Byte := [60#8, 117#8, 110#8, 107#8, 62#8]

/-- Specification: the text `<unk>`. -/
def Spec.unkText : List Byte := ['<', 'u', 'n', 'k', '>'].map fun c => BitVec.ofNat 8 c.toNat

theorem unkBytes_eq : unkBytes = Spec.unkText := by decide

namespace MphProb
variable {F : Type} [FloatArith F] {B : Nat}

/-- The table of the unigrams (mph_prob_lm.hpp:140-179): values are not quantised. -/
def buildVocabulary (fb : FloatBits F) (mem extra : Nat) (h : Mphf (List Byte) B) (f0 : List (List Byte × F × F)) : Option (SVTable (List Byte) B) :=
  (poolOf mem extra f0).bind fun index =>
  tableOf h 64 f0.length (fun v => some (pack (fb.enc v.1) (fb.enc v.2))) index

/-- The table of the order with index `k ≥ 1` (mph_prob_lm.hpp:72-105). -/
def buildTable (mem extra : Nat) (h : Mphf (List Byte) B) (ps bs : List (List F)) (pb bb order k : Nat) (f : List (List Byte × F × F)) :
    Option (SVTable (List Byte) B) :=
  (poolOf mem extra f).bind fun index =>
  tableOf h (pb + if k + 1 ≠ order then bb else 0) f.length
    (fun v => (Quant.rankPair ps bs pb order k v.1 v.2).map (BitVec.ofNat 64)) index

/-- `mph_prob_lm::builder` (mph_prob_lm.hpp:19-122), given the sections of the file up to the order of the model, each n-gram being its bytes.
`mem` is the size in bytes of each pool, `hs k` the hash function built for the order with index `k`. -/
def build (fb : FloatBits F) (sort : List F → List F) (negInf default unk : F) (mem extra : Nat) (hs : Nat → Mphf (List Byte) B) (pb bb : Nat)
    (data : List (List (List Byte × F × F))) : Res (MphProb F B) :=
  if data.length < 2 ∨ maxOrder < data.length then some (.error ()) else
  Res.bind (Quant.codebooks sort negInf pb bb data) fun cb =>
  Res.bind (Res.lift data.head?) fun f0 =>
  Res.bind (Res.lift (buildVocabulary fb mem extra (hs 0) f0)) fun t0 =>
  Res.bind (Res.mapM (fun p => Res.lift (buildTable mem extra (hs (p.2 + 1)) cb.1 cb.2 pb bb data.length (p.2 + 1) p.1)) data.tail.zipIdx) fun ts =>
  some (.ok { order := data.length, unk := findUnk unkBytes default (f0.map fun r => ([r.1], r.2)) unk, ps := cb.1, bs := cb.2, pb := pb,
              tables := t0 :: ts })

/-- The bytes of a range that is hashed (mphf over `byte_range`, single_valued_mpht.hpp:84-95): undefined if the range ends before it begins, or if bytes outside the
memory would be read. -/
def bytesOf (text : Mem) (r : ByteRange) : Option (List Byte) :=
  if r.1 ≤ r.2 ∧ (r.1 < r.2 → r.2 ≤ text.length) then some (slice text r) else none

/-- The parts of `score` (mph_prob_lm.hpp:190-259) that are specific to the hash model, for the words of the memory `text`: a word pushed on the
state is the position of its first byte; the data kept by the loop is the position `word.second` after the current word. -/
def scorer (fb : FloatBits F) (m : MphProb F B) (text : Mem) : Scorer ByteRange Nat F Nat where
  order := m.order
  unk := m.unk
  first word := (m.tables[0]?).bind fun t => ((bytesOf text word).bind t.lookup).map fun value =>
    (word.1, if value = notFound then none else some (fb.dec (unpack value).1, fb.dec (unpack value).2, word.2))
  next j c x := (m.tables[j]?).bind fun t => ((bytesOf text (x, c)).bind t.lookup).bind fun rank =>
    if rank = notFound then some none else
    if j ≠ m.order - 1 then
      (Quant.accessAt m.ps (j - 1) (rank.toNat &&& (2 ^ m.pb - 1))).bind fun p =>
      (Quant.accessAt m.bs (j - 1) (rank.toNat >>> m.pb)).map fun b => some (p, some b, c)
    else (Quant.accessAt m.ps (j - 1) rank.toNat).map fun p => some (p, none, c)

end MphProb

/-- Specification: n-grams of the sections are made of non-empty words without spaces, and each section fits in `mem` bytes. -/
structure Spec.ByteSections {F : Type} (mem : Nat) (data : List (List (List (List Byte) × F × F))) : Prop where
  words : ∀ f ∈ data, ∀ r ∈ f, ∀ w ∈ r.1, Spec.IsWord w ∧ w ≠ []
  memory : ∀ f ∈ data, (f.map fun r => (joinSp r.1).length).sum ≤ mem

/-- Specification: every n-gram (of at most `order` words) of the sentence is in the table of its order, or is recognised by it as absent (see C23). -/
def Spec.GramsRecognised {B : Nat} (hs : Nat → Mphf (List Byte) B) {F : Type} (data : List (List (List (List Byte) × F × F))) (ws : List (List Byte)) : Prop :=
  ∀ (k : Nat) (f : List (List (List Byte) × F × F)), data[k]? = some f → ∀ g, g <:+: ws → g.length = k + 1 →
    Spec.Recognised (hs k) (f.map fun r => joinSp r.1) (joinSp g)

/-! ## Proofs -/

namespace Spec.Arpa
variable {K K' F : Type} [LogProb F]

/-- The model read through a map of its words. -/
def comap (A : Spec.Arpa K F) (f : K' → K) : Spec.Arpa K' F := { order := A.order, unk := A.unk, entry := fun g => A.entry (g.map f) }

theorem comap_backoff (A : Spec.Arpa K F) (f : K' → K) (c : List K') : (A.comap f).backoff c = A.backoff (c.map f) := rfl

theorem comap_score (A : Spec.Arpa K F) (f : K' → K) (c : List K') (w : K') : (A.comap f).score c w = A.score (c.map f) (f w) := by
  induction c with
  | nil => rfl
  | cons x c ih =>
    rw [score, List.map_cons, score, ih, comap_backoff]
    simp only [comap, List.map_cons, List.map_append, List.map_nil]

theorem comap_longestNZ (A : Spec.Arpa K F) (f : K' → K) (h : List K') (n : Nat) : (A.comap f).longestNZ h n = A.longestNZ (h.map f) n := by
  induction n with
  | zero => rfl
  | succ n ih => rw [longestNZ, longestNZ, ih, comap_backoff, List.map_reverse, List.map_take]

theorem comap_kept (A : Spec.Arpa K F) (f : K' → K) (h : List K') : (A.comap f).kept h = A.kept (h.map f) := by
  induction h with
  | nil => rfl
  | cons w h ih => rw [kept, List.map_cons, kept, ih, comap_longestNZ]; rfl

theorem comap_wordScores (A : Spec.Arpa K F) (f : K' → K) (ws : List K') : (A.comap f).wordScores ws = A.wordScores (ws.map f) := by
  unfold wordScores
  apply List.ext_getElem
  · simp
  intro i h1 h2
  rw [List.getElem_mapIdx, List.getElem_mapIdx, List.getElem_map]
  refine Prod.ext ?_ rfl
  show keptScoreAt _ _ _ _ = keptScoreAt _ _ _ _
  unfold keptScoreAt lastN
  rw [comap_score, comap_kept, List.map_drop, List.map_take, List.map_reverse, List.map_take]
  simp

theorem comap_corpus (A : Spec.Arpa K F) (f : K' → K) (text : List (List K')) : (A.comap f).corpus text = A.corpus (text.map (·.map f)) := by
  have h1 : ∀ ws : List K', (A.comap f).sentenceScore ws = A.sentenceScore (ws.map f) := fun ws => by unfold sentenceScore; rw [comap_wordScores]
  unfold corpus
  congr 1
  · rw [List.map_map]
    congr 1
    apply List.map_congr_left
    intro ws _
    simp only [Function.comp, List.countP_map]
    rfl
  · simp
  · rw [List.map_map]; congr 1; apply List.map_congr_left; intro ws _; simp
  · rw [List.map_map]
    congr 1
    apply List.map_congr_left
    intro ws _; exact h1 ws
  · rw [List.flatMap_map]
    congr 2
    congr 1
    funext ws
    exact comap_wordScores A f ws

theorem comap_wellFormed {A : Spec.Arpa K F} (h : A.WellFormed) (f : K' → K) : (A.comap f).WellFormed where
  two_le := h.two_le
  le_max := h.le_max
  length := by intro g hg; have := h.length (g.map f) hg; rw [List.length_map] at this; exact this
  tail := by intro x g hg hne; exact h.tail (f x) (g.map f) (by simpa [comap] using hg) (by simpa using hne)
  context := by intro g w hg hne; exact h.context (g.map f) (f w) (by simpa [comap] using hg) (by simpa using hne)

end Spec.Arpa


theorem wordRanges_last {off : Nat} {ws : List (List Byte)} (h : ws ≠ []) :
    (wordRanges off ws).getLast?.map (·.2) = some (off + (joinSp ws).length) := by
  induction ws generalizing off with
  | nil => exact absurd rfl h
  | cons w ws ih =>
    cases ws with
    | nil => rfl
    | cons v vs =>
      have := ih (off := off + w.length + 1) (by simp)
      rw [wordRanges, joinSp_length_cons (by simp)]
      rw [wordRanges] at this ⊢
      rw [List.getLast?_cons_cons, this]
      congr 1
      omega

namespace MphProb
variable {F : Type} [FloatArith F] {B : Nat}

theorem codebooks_lines (sort : List F → List F) (negInf : F) (pb bb : Nat) (data : List (List (List (List Byte) × F × F))) :
    Quant.codebooks sort negInf pb bb (Spec.lines data) = Quant.codebooks sort negInf pb bb data := by
  have hm : ∀ {α β γ : Type} (f : β → Res γ) (g : α → β) (l : List α), Res.mapM f (l.map g) = Res.mapM (fun x => f (g x)) l := by
    intro α β γ f g l
    induction l with
    | nil => rfl
    | cons a l ih => rw [List.map_cons, Res.mapM, Res.mapM, ih]
  unfold Quant.codebooks Spec.lines
  rw [← List.map_tail, ← List.map_dropLast, hm, hm]
  simp only [List.map_map, Function.comp_def]

/-- What the builder makes of the sections. -/
structure Good (fb : FloatBits F) (hs : Nat → Mphf (List Byte) B) (data : List (List (List (List Byte) × F × F))) (pb : Nat) (ps bs : List (List F))
    (m : MphProb F B) : Prop where
  order : m.order = data.length
  ps_eq : m.ps = ps
  bs_eq : m.bs = bs
  pb_eq : m.pb = pb
  voc : ∀ f, data[0]? = some f → ∃ t, m.tables[0]? = some t ∧
    (∀ r ∈ f, t.lookup (joinSp r.1) = some (pack (fb.enc r.2.1) (fb.enc r.2.2))) ∧
    ∀ x, x ∉ f.map (fun r => joinSp r.1) → Spec.Recognised (hs 0) (f.map fun r => joinSp r.1) x → t.lookup x = some notFound
  grams : ∀ (k : Nat) (f : List (List (List Byte) × F × F)), data[k + 1]? = some f → ∃ t, m.tables[k + 1]? = some t ∧
    (∀ r ∈ f, ∃ rk, Quant.rankPair ps bs pb data.length (k + 1) r.2.1 r.2.2 = some rk ∧ t.lookup (joinSp r.1) = some (BitVec.ofNat 64 rk)) ∧
    ∀ x, x ∉ f.map (fun r => joinSp r.1) → Spec.Recognised (hs (k + 1)) (f.map fun r => joinSp r.1) x → t.lookup x = some notFound

theorem build_ok (fb : FloatBits F) {sort : List F → List F} (negInf default unk : F) {mem extra : Nat} {hs : Nat → Mphf (List Byte) B}
    {data : List (List (List (List Byte) × F × F))} {pb bb : Nat} (h : Spec.ArpaFiles data) (hbytes : Spec.ByteSections mem data)
    (hb : ∀ (k : Nat) (f : List (List (List Byte) × F × F)), data[k]? = some f → (hs k).BuiltFrom (f.map fun r => joinSp r.1))
    (hB : B = 64 ∧ pb + bb ≤ 63 ∧ (∀ f ∈ data, f.length ≤ 2 ^ 57) ∨ B = 32 ∧ pb + bb ≤ 32 ∧ ∀ f ∈ data, f.length ≤ 2 ^ 25) (hpb : 2 ≤ pb)
    {ps bs : List (List F)} (hcb : Quant.codebooks sort negInf pb bb data = some (.ok (ps, bs))) (hc : Quant.Codes data pb bb ps bs) :
    ∃ m, build fb sort negInf default unk mem extra hs pb bb (Spec.lines data) = some (.ok m) ∧ Good fb hs data pb ps bs m ∧
      m.unk = findUnk unkBytes default (data.getD 0 []) unk := by
  have hl : (Spec.lines data).length = data.length := by simp [Spec.lines]
  have h2 := h.order_min
  have h8 := h.order_max
  have hget : ∀ (k : Nat) f, data[k]? = some f → (Spec.lines data)[k]? = some (f.map fun r => (joinSp r.1, r.2)) := by
    intro k f hf; unfold Spec.lines; rw [List.getElem?_map, hf]; rfl
  have hsz : ∀ f ∈ data, ∀ w, w ≤ 64 → f.length * (B + w) ≤ 2 ^ B := by
    intro f hf w hw
    rcases hB with ⟨rfl, -, h1⟩ | ⟨rfl, -, h1⟩
    · calc f.length * (64 + w) ≤ 2 ^ 57 * 128 := Nat.mul_le_mul (h1 f hf) (by omega)
        _ = 2 ^ 64 := by norm_num
    · calc f.length * (32 + w) ≤ 2 ^ 25 * 128 := Nat.mul_le_mul (h1 f hf) (by omega)
        _ = 2 ^ 32 := by norm_num
  have hpool : ∀ f ∈ data, poolOf mem extra (f.map fun r => (joinSp r.1, r.2)) = some (f.map fun r => (joinSp r.1, r.2)) := by
    intro f hf
    obtain ⟨k, hk, rfl⟩ := List.mem_iff_getElem.1 hf
    refine poolOf_ok ?_ (by rw [List.map_map]; exact hbytes.memory _ hf)
    intro r hr
    obtain ⟨q, hq, rfl⟩ := List.mem_map.1 hr
    refine joinSp_ne_nil ?_ fun w hw => (hbytes.words _ hf q hq w hw).2
    intro h0
    have := h.len k _ (List.getElem?_eq_getElem hk) q hq
    rw [h0] at this
    simp at this
  -- the unigrams
  obtain ⟨f0, hf0⟩ : ∃ f0, data[0]? = some f0 := ⟨_, List.getElem?_eq_getElem (by omega)⟩
  have hf0m := List.mem_of_getElem? hf0
  have hkeys : ∀ f : List (List (List Byte) × F × F), (f.map fun r => (joinSp r.1, r.2)).map (·.1) = f.map fun r => joinSp r.1 := by
    intro f; rw [List.map_map]; rfl
  obtain ⟨t0, u1, u2, u3⟩ := tableOf_ok (h := hs 0) (width := 64) (value := fun v : F × F => some (pack (fb.enc v.1) (fb.enc v.2)))
    (recs := f0.map fun r => (joinSp r.1, r.2)) (by rw [hkeys]; exact hb 0 f0 hf0) (by simpa using h.nonempty f0 hf0m)
    (vs := f0.map fun r => pack (fb.enc r.2.1) (fb.enc r.2.2)) (by
      have := Trie.mapM_eq_map (f := fun r : List Byte × F × F => some (pack (fb.enc r.2.1) (fb.enc r.2.2)))
        (g := fun r => pack (fb.enc r.2.1) (fb.enc r.2.2)) (l := f0.map fun r => (joinSp r.1, r.2)) (fun r hr => rfl)
      rw [List.map_map] at this
      exact this)
    (fun v _ => v.isLt) (by omega) (by
      rcases hB with ⟨rfl, -⟩ | ⟨rfl, -⟩
      · exact .inl ⟨rfl, by omega⟩
      · exact .inr ⟨rfl, .inr rfl⟩) (by rw [List.length_map]; exact hsz f0 hf0m 64 (by omega))
  -- the other orders
  have hlev : ∀ (k : Nat) g, (Spec.lines data).tail[k]? = some g → ∃ t, buildTable mem extra (hs (k + 1)) ps bs pb bb data.length (k + 1) g = some t ∧
      ∀ f, data[k + 1]? = some f →
      (∀ r ∈ f, ∃ rk, Quant.rankPair ps bs pb data.length (k + 1) r.2.1 r.2.2 = some rk ∧ t.lookup (joinSp r.1) = some (BitVec.ofNat 64 rk)) ∧
      ∀ x, x ∉ f.map (fun r => joinSp r.1) → Spec.Recognised (hs (k + 1)) (f.map fun r => joinSp r.1) x → t.lookup x = some notFound := by
    intro k g hg
    rw [List.getElem?_tail] at hg
    have hk : k + 1 < data.length := by rw [← hl]; exact (List.getElem?_eq_some_iff.1 hg).1
    have hf : data[k + 1]? = some data[k + 1] := List.getElem?_eq_getElem hk
    rw [hget _ _ hf] at hg
    cases hg
    generalize data[k + 1] = f at *
    have hfm := List.mem_of_getElem? hf
    have hrk : ∀ r ∈ f, ∃ rk, Quant.rankPair ps bs pb data.length (k + 1) r.2.1 r.2.2 = some rk ∧ rk < 2 ^ (pb + if k + 1 + 1 ≠ data.length then bb else 0) := by
      intro r hr
      obtain ⟨rk, h1, h2, -⟩ := Quant.rankPair_ok hc hf hr
      refine ⟨rk, h1, ?_⟩
      by_cases he : k + 2 = data.length
      · rw [if_pos he] at h2; rw [if_neg (by omega)]; exact h2
      · rw [if_neg he] at h2; rw [if_pos (by omega)]; exact h2
    have hwid : (pb + if k + 1 + 1 ≠ data.length then bb else 0) ≤ pb + bb := by split <;> omega
    have hwid63 : (pb + if k + 1 + 1 ≠ data.length then bb else 0) ≤ 63 := by
      rcases hB with ⟨-, h1, -⟩ | ⟨-, h1, -⟩ <;> omega
    generalize hweq : (pb + if k + 1 + 1 ≠ data.length then bb else 0) = w at *
    have hw2 : 2 ≤ w := by omega
    have hp : 2 ^ w ≤ 2 ^ 63 := Nat.pow_le_pow_right (by omega) hwid63
    have hvs := Trie.mapM_eq_map (f := fun r : List Byte × F × F => (Quant.rankPair ps bs pb data.length (k + 1) r.2.1 r.2.2).map (BitVec.ofNat 64))
      (g := fun r => BitVec.ofNat 64 ((Quant.rankPair ps bs pb data.length (k + 1) r.2.1 r.2.2).getD 0)) (l := f.map fun r => (joinSp r.1, r.2)) (by
        intro r hr
        obtain ⟨q, hq, rfl⟩ := List.mem_map.1 hr
        obtain ⟨rk, h1, -⟩ := hrk q hq
        show Option.map _ (Quant.rankPair ps bs pb data.length (k + 1) q.2.1 q.2.2) = some (BitVec.ofNat 64 ((Quant.rankPair ps bs pb data.length (k + 1) q.2.1 q.2.2).getD 0))
        rw [h1]; rfl)
    obtain ⟨t, u1, u2, u3⟩ := tableOf_ok (h := hs (k + 1)) (width := w)
      (value := fun v : F × F => (Quant.rankPair ps bs pb data.length (k + 1) v.1 v.2).map (BitVec.ofNat 64))
      (recs := f.map fun r => (joinSp r.1, r.2)) (by rw [hkeys]; exact hb _ f hf) (by simpa using h.nonempty f hfm) hvs (by
        intro v hv
        obtain ⟨q', hq', rfl⟩ := List.mem_map.1 hv
        obtain ⟨q, hq, rfl⟩ := List.mem_map.1 hq'
        obtain ⟨rk, h1, h2⟩ := hrk q hq
        show (BitVec.ofNat 64 ((Quant.rankPair ps bs pb data.length (k + 1) q.2.1 q.2.2).getD 0)).toNat < _
        rw [h1, Option.getD_some, BitVec.toNat_ofNat, Nat.mod_eq_of_lt (by omega)]
        exact h2) (by omega) (by
        rcases hB with ⟨rfl, h1, -⟩ | ⟨rfl, h1, -⟩
        · exact .inl ⟨rfl, by omega⟩
        · exact .inr ⟨rfl, .inl (by omega)⟩) (by rw [List.length_map]; exact hsz f hfm w (by omega))
    refine ⟨t, ?_, ?_⟩
    · unfold buildTable
      rw [hpool f hfm, Option.bind_some, hweq]
      exact u1
    · intro f' hf'
      rw [hf] at hf'
      cases hf'
      rw [hkeys] at u3
      refine ⟨?_, u3⟩
      intro r hr
      obtain ⟨i, hi, rfl⟩ := List.mem_iff_getElem.1 hr
      obtain ⟨v, -, h2, h3⟩ := u2 i (joinSp f[i].1, f[i].2) (by rw [List.getElem?_map, List.getElem?_eq_getElem hi]; rfl)
      obtain ⟨rk, h4, -⟩ := hrk _ hr
      refine ⟨rk, h4, ?_⟩
      replace h2 : (Quant.rankPair ps bs pb data.length (k + 1) f[i].2.1 f[i].2.2).map (BitVec.ofNat 64) = some v := h2
      rw [h4, Option.map_some, Option.some.injEq] at h2
      rw [h2]; exact h3
  obtain ⟨ts, d1, d2, d3⟩ := Res.mapM_get (f := fun p : List (List Byte × F × F) × Nat => Res.lift (buildTable mem extra (hs (p.2 + 1)) ps bs pb bb data.length (p.2 + 1) p.1))
    (l := (Spec.lines data).tail.zipIdx)
    (P := fun k p t => ∀ f, data[k + 1]? = some f →
      (∀ r ∈ f, ∃ rk, Quant.rankPair ps bs pb data.length (k + 1) r.2.1 r.2.2 = some rk ∧ t.lookup (joinSp r.1) = some (BitVec.ofNat 64 rk)) ∧
      ∀ x, x ∉ f.map (fun r => joinSp r.1) → Spec.Recognised (hs (k + 1)) (f.map fun r => joinSp r.1) x → t.lookup x = some notFound) (by
      intro k p hp
      rw [List.getElem?_zipIdx, Nat.zero_add] at hp
      obtain ⟨g, h1, rfl⟩ := Option.map_eq_some_iff.1 hp
      obtain ⟨t, h2, h3⟩ := hlev k g h1
      exact ⟨t, by show Res.lift (buildTable mem extra (hs (k + 1)) ps bs pb bb data.length (k + 1) g) = _; rw [h2]; rfl, h3⟩)
  have hgD : data.getD 0 [] = f0 := by rw [List.getD_eq_getElem?_getD, hf0]; rfl
  refine ⟨{ order := data.length, unk := findUnk unkBytes default (data.getD 0 []) unk, ps := ps, bs := bs, pb := pb, tables := t0 :: ts }, ?_, ?_, rfl⟩
  · unfold build
    rw [if_neg (by rw [hl]; unfold maxOrder; omega), codebooks_lines, hcb, Res.bind_ok, List.head?_eq_getElem?, hget 0 f0 hf0]
    show Res.bind (Res.lift (buildVocabulary fb mem extra (hs 0) _)) _ = _
    unfold buildVocabulary
    rw [hpool f0 hf0m, Option.bind_some, u1]
    show Res.bind (Res.mapM _ (Spec.lines data).tail.zipIdx) _ = _
    rw [hl, d1, Res.bind_ok, hgD, List.map_map]
    have : f0.map ((fun r => ([r.1], r.2)) ∘ fun r : List (List Byte) × F × F => (joinSp r.1, r.2)) = f0 := by
      conv_rhs => rw [← List.map_id f0]
      apply List.map_congr_left
      intro r hr
      obtain ⟨w, hw⟩ := List.length_eq_one_iff.1 (h.len 0 f0 hf0 r hr)
      show ([joinSp r.1], r.2) = r
      rw [hw]
      exact Prod.ext hw.symm rfl
    rw [this]
  · refine ⟨rfl, rfl, rfl, rfl, ?_, ?_⟩
    · intro f hf
      rw [hf0] at hf; cases hf
      rw [hkeys] at u3
      refine ⟨t0, rfl, ?_, u3⟩
      intro r hr
      obtain ⟨i, hi, rfl⟩ := List.mem_iff_getElem.1 hr
      obtain ⟨v, -, h2, h3⟩ := u2 i (joinSp f0[i].1, f0[i].2) (by rw [List.getElem?_map, List.getElem?_eq_getElem hi]; rfl)
      cases h2
      exact h3
    · intro k f hf
      have hk : k + 1 < data.length := (List.getElem?_eq_some_iff.1 hf).1
      have hlt : k < ts.length := by rw [d2, List.length_zipIdx, List.length_tail, hl]; omega
      have htk : ts[k]? = some ts[k] := List.getElem?_eq_getElem hlt
      refine ⟨ts[k], htk, ?_⟩
      exact d3 k (f.map fun r => (joinSp r.1, r.2), k) _ (by
        rw [List.getElem?_zipIdx, Nat.zero_add, List.getElem?_tail, hget _ _ hf]; rfl) htk f hf


/-- A gram of the text (words most recent first): consecutive words separated by single spaces. -/
def IsGram (hs : Nat → Mphf (List Byte) B) (data : List (List (List (List Byte) × F × F))) (text : Mem) (g : List ByteRange) : Prop :=
  ∃ off ws, At text off (joinSp ws) ∧ (∀ w ∈ ws, Spec.IsWord w) ∧ g.reverse = wordRanges off ws ∧
    ∀ (k : Nat) (f : List (List (List Byte) × F × F)), data[k]? = some f → ws.length = k + 1 → Spec.Recognised (hs k) (f.map fun r => joinSp r.1) (joinSp ws)

section
variable {fb : FloatBits F} {hs : Nat → Mphf (List Byte) B} {data : List (List (List (List Byte) × F × F))} {pb bb mem : Nat} {ps bs : List (List F)}
  {m : MphProb F B}

theorem gram_not_mem (hbytes : Spec.ByteSections mem data) (h : Spec.ArpaFiles data) {unk : F} {qp qb : Nat → F → F} {ws : List (List Byte)}
    (hw : ∀ w ∈ ws, Spec.IsWord w) (he : (Spec.Arpa.ofData data unk qp qb).entry ws = none) {k : Nat} {f : List (List (List Byte) × F × F)}
    (hf : data[k]? = some f) (hk : ws.length = k + 1) : joinSp ws ∉ f.map fun r => joinSp r.1 := by
  intro hm
  obtain ⟨r, hr, hrj⟩ := List.mem_map.1 hm
  have hrl := h.len k f hf r hr
  have : r.1 = ws := joinSp_inj (fun w hw => (hbytes.words f (List.mem_of_getElem? hf) r hr w hw).1) hw (by omega) hrj
  obtain ⟨i, hi, rfl⟩ := List.mem_iff_getElem.1 hr
  have hent := ArpaData.entry_eq data unk qp qb h hf (List.getElem?_eq_getElem hi)
  rw [this, he] at hent
  simp at hent

theorem bytesOf_at {text : Mem} {off : Nat} {s : List Byte} (hat : At text off s) : bytesOf text (off, off + s.length) = some s := by
  have hl : s.length ≤ text.length - off := by have := List.IsPrefix.length_le hat; rwa [List.length_drop] at this
  unfold bytesOf
  rw [if_pos ⟨Nat.le_add_right _ _, fun h => by simp only at h ⊢; omega⟩, hat.slice_eq]

theorem gram_range {text : Mem} {off : Nat} {ws : List (List Byte)} (hat : At text off (joinSp ws)) {g : List ByteRange} {x : ByteRange} {c : Nat}
    (hg : (g ++ [x]).reverse = wordRanges off ws) (hc : ∃ r, g.head? = some r ∧ r.2 = c) :
    bytesOf text (x.1, c) = some (joinSp ws) ∧ ws.length = g.length + 1 ∧ (x :: g.reverse).map (slice text) = ws := by
  have hlen : ws.length = g.length + 1 := by rw [← wordRanges_length off ws, ← hg]; simp
  have hne : ws ≠ [] := by rintro rfl; simp at hlen
  have hlast := wordRanges_last (off := off) hne
  obtain ⟨r, hr, rfl⟩ := hc
  rw [List.reverse_append] at hg
  have hg' : x :: g.reverse = wordRanges off ws := hg
  refine ⟨?_, hlen, by rw [hg']; exact slices_wordRanges hat⟩
  have hx : x.1 = off := by
    cases ws with
    | nil => exact absurd rfl hne
    | cons w ws => rw [wordRanges] at hg'; rw [(List.cons.inj hg').1]
  rw [← hg'] at hlast
  have : (x :: g.reverse).getLast? = some r := by
    rw [List.getLast?_cons, List.getLast?_reverse, hr]; rfl
  rw [this, Option.map_some, Option.some.injEq] at hlast
  rw [hx, hlast]
  exact bytesOf_at hat

theorem bytesOf_word {text : Mem} {off : Nat} {ws : List (List Byte)} (hat : At text off (joinSp ws)) {k : ByteRange} (hg : [k].reverse = wordRanges off ws) :
    bytesOf text k = some (slice text k) := by
  match ws, hat, hg with
  | [w], hat, hg =>
    rw [wordRanges, wordRanges] at hg
    have e := (List.cons.inj hg).1
    subst e
    rw [bytesOf_at (by exact hat), show slice text (off, off + w.length) = w from hat.slice_eq]
  | a :: b :: ws, _, hg => simp [wordRanges] at hg

/-- The hash model looks up the n-grams of the ARPA model. -/
def implements (text : Mem) (hfb : ∀ f0, data[0]? = some f0 → ∀ r ∈ f0, fb.dec (fb.enc r.2.1) = r.2.1 ∧ fb.dec (fb.enc r.2.2) = r.2.2)
    (hnan : ∀ f0, data[0]? = some f0 → ∀ r ∈ f0, pack (fb.enc r.2.1) (fb.enc r.2.2) ≠ notFound) (hbits : pb + bb ≤ 63)
    (h : Spec.ArpaFiles data) (hbytes : Spec.ByteSections mem data) (hg : Good fb hs data pb ps bs m) (hc : Quant.Codes data pb bb ps bs) :
    Scorer.Implements (m.scorer fb text) ((Spec.Arpa.ofData data m.unk (Quant.quantiser ps 0) (Quant.quantiser bs 1)).comap (slice text))
      (IsGram hs data text) (fun r => r.1) where
  order := hg.order
  unk := rfl
  Cur g c := ∃ r, g.head? = some r ∧ r.2 = c
  first_some := by
    intro k p b hV he
    obtain ⟨off, ws, hat, hw, hws, -⟩ := hV
    have hby := bytesOf_word hat hws
    have hs1 : [slice text k] = ws := by
      rw [← slices_wordRanges hat, ← hws]; rfl
    have he' : (Spec.Arpa.ofData data m.unk (Quant.quantiser ps 0) (Quant.quantiser bs 1)).entry [slice text k] = some (p, b) := he
    obtain ⟨f, r, hf, hr, hrg, -⟩ := ArpaData.entry_some data m.unk (Quant.quantiser ps 0) (Quant.quantiser bs 1) (by rw [he']; rfl)
    obtain ⟨i, hi, rfl⟩ := List.mem_iff_getElem.1 hr
    have hent := ArpaData.entry_eq data m.unk (Quant.quantiser ps 0) (Quant.quantiser bs 1) h hf (List.getElem?_eq_getElem hi)
    rw [hrg, he'] at hent
    replace hent : some (p, b) = some f[i].2 := hent
    have hpb : (p, b) = f[i].2 := Option.some.inj hent
    have hf' : data[0]? = some f := hf
    obtain ⟨t, t1, t2, -⟩ := hg.voc f hf'
    have hl := t2 _ hr
    rw [hrg] at hl
    have hfb' := hfb f hf' _ hr
    refine ⟨k.2, ?_, k, rfl, rfl⟩
    show (m.tables[0]?).bind _ = _
    rw [t1, Option.bind_some, hby]
    show Option.map _ (t.lookup (joinSp [slice text k])) = _
    rw [hl, Option.map_some, if_neg (hnan f hf' _ hr), unpack_pack]
    dsimp only
    rw [hfb'.1, hfb'.2, ← hpb]
  first_none := by
    intro k hV he
    obtain ⟨off, ws, hat, hw, hws, hrec⟩ := hV
    have hby := bytesOf_word hat hws
    have hs1 : [slice text k] = ws := by rw [← slices_wordRanges hat, ← hws]; rfl
    subst hs1
    obtain ⟨f0, hf0⟩ : ∃ f0, data[0]? = some f0 := ⟨_, List.getElem?_eq_getElem (by have := h.order_min; omega)⟩
    obtain ⟨t, t1, -, t3⟩ := hg.voc f0 hf0
    have he' : (Spec.Arpa.ofData data m.unk (Quant.quantiser ps 0) (Quant.quantiser bs 1)).entry [slice text k] = none := he
    have hl := t3 (joinSp [slice text k]) (gram_not_mem (k := 0) hbytes h hw he' hf0 rfl) (hrec 0 f0 hf0 rfl)
    show (m.tables[0]?).bind _ = _
    rw [t1, Option.bind_some, hby]
    show Option.map _ (t.lookup (joinSp [slice text k])) = _
    rw [hl, Option.map_some, if_pos rfl]
  next_some := by
    intro g x c p b hcur hg0 hgl hV hgs he
    obtain ⟨off, ws, hat, hw, hws, -⟩ := hV
    obtain ⟨h1, h2, h3⟩ := gram_range hat hws hcur
    have he' : (Spec.Arpa.ofData data m.unk (Quant.quantiser ps 0) (Quant.quantiser bs 1)).entry ws = some (p, b) := by rw [← h3]; exact he
    have hpos := List.length_pos_iff.2 hg0
    obtain ⟨f, r, hf, hr, hrg, -⟩ := ArpaData.entry_some data m.unk (Quant.quantiser ps 0) (Quant.quantiser bs 1) (by rw [he']; rfl)
    obtain ⟨k, hk⟩ : ∃ k, g.length = k + 1 := ⟨g.length - 1, by omega⟩
    rw [h2, Nat.add_sub_cancel, hk] at hf
    obtain ⟨i, hi, rfl⟩ := List.mem_iff_getElem.1 hr
    have hent := ArpaData.entry_eq data m.unk (Quant.quantiser ps 0) (Quant.quantiser bs 1) h hf (List.getElem?_eq_getElem hi)
    rw [hrg, he', if_neg (by omega), h2, hk] at hent
    obtain ⟨hp, hb⟩ := Prod.mk.inj (Option.some.inj hent)
    obtain ⟨t, t1, t2, -⟩ := hg.grams k f hf
    obtain ⟨rk, m1, m2⟩ := t2 _ hr
    obtain ⟨rk', o1, o2, o3, o4, o5⟩ := Quant.rankPair_ok hc hf hr
    rw [m1] at o1; cases o1
    rw [hrg] at m2
    have hlt : rk < 2 ^ 63 := by
      refine Nat.lt_of_lt_of_le o2 (Nat.pow_le_pow_right (by omega) ?_)
      split <;> omega
    have hnat : (BitVec.ofNat 64 rk).toNat = rk := by rw [BitVec.toNat_ofNat, Nat.mod_eq_of_lt (by omega)]
    have hnf : BitVec.ofNat 64 rk ≠ notFound := by
      intro hh
      have := congrArg BitVec.toNat hh
      rw [hnat] at this
      have : rk = 2 ^ 64 - 1 := this
      omega
    refine ⟨c, ?_, ?_⟩
    · show (m.tables[g.length]?).bind _ = _
      rw [hk, t1, Option.bind_some, h1, Option.bind_some, m2, Option.bind_some, if_neg hnf, hnat, hg.ps_eq, hg.bs_eq, hg.pb_eq, hg.order, Nat.add_sub_cancel]
      have hord : ((Spec.Arpa.ofData data m.unk (Quant.quantiser ps 0) (Quant.quantiser bs 1)).comap (slice text)).order = data.length := rfl
      rw [hord]
      replace hgl : g.length < data.length := hgl
      by_cases hlast : k + 1 = data.length - 1
      · rw [if_neg (by omega), if_pos hlast, o5 (by omega), Option.map_some, hp]
      · rw [if_pos hlast, if_neg hlast, o3, Option.bind_some, o4 (by omega), Option.map_some, hp, hb]
    · obtain ⟨r, hr, hrc⟩ := hcur
      exact ⟨r, by cases g with | nil => exact absurd rfl hg0 | cons a g => simpa using hr, hrc⟩
  next_none := by
    intro g x c hcur hg0 hgl hV hgs hxs he
    obtain ⟨off, ws, hat, hw, hws, hrec⟩ := hV
    obtain ⟨h1, h2, h3⟩ := gram_range hat hws hcur
    have he' : (Spec.Arpa.ofData data m.unk (Quant.quantiser ps 0) (Quant.quantiser bs 1)).entry ws = none := by rw [← h3]; exact he
    have hpos := List.length_pos_iff.2 hg0
    obtain ⟨k, hk⟩ : ∃ k, g.length = k + 1 := ⟨g.length - 1, by omega⟩
    replace hgl : g.length < data.length := hgl
    have hf : data[k + 1]? = some (data[k + 1]'(by omega)) := List.getElem?_eq_getElem _
    obtain ⟨t, t1, -, t3⟩ := hg.grams k _ hf
    have hl := t3 _ (gram_not_mem hbytes h hw he' hf (by omega)) (hrec _ _ hf (by omega))
    show (m.tables[g.length]?).bind _ = _
    rw [hk, t1, Option.bind_some, h1, Option.bind_some, hl, Option.bind_some, if_pos rfl]

end
end MphProb

theorem wordRanges_take (off : Nat) (ws : List (List Byte)) (a : Nat) : (wordRanges off ws).take a = wordRanges off (ws.take a) := by
  induction ws generalizing off a with
  | nil => simp [wordRanges]
  | cons w ws ih =>
    cases a with
    | zero => simp [wordRanges]
    | succ a => rw [wordRanges, List.take_succ_cons, List.take_succ_cons, wordRanges, ih]

theorem wordRanges_drop (off : Nat) (ws : List (List Byte)) (a : Nat) :
    (wordRanges off ws).drop a = wordRanges (off + (spaced (ws.take a)).length) (ws.drop a) := by
  induction ws generalizing off a with
  | nil => simp [wordRanges]
  | cons w ws ih =>
    cases a with
    | zero => simp [spaced]
    | succ a =>
      rw [wordRanges, List.drop_succ_cons, List.drop_succ_cons, ih, List.take_succ_cons, spaced_cons]
      congr 1
      simp; omega

theorem at_infix {text : Mem} {off : Nat} {as gs bs : List (List Byte)} (h : At text off (joinSp (as ++ gs ++ bs))) (hne : gs ≠ []) :
    At text (off + (spaced as).length) (joinSp gs) := by
  rw [List.append_assoc, joinSp_append as (by simp [hne])] at h
  have h1 := (At.append.1 h).2
  by_cases hb : bs = []
  · subst hb; rwa [List.append_nil] at h1
  · rw [joinSp_append gs hb, spaced_eq hne, List.append_assoc] at h1
    exact (At.append.1 h1).1

theorem occurs_isGram {F : Type} {B : Nat} {hs : Nat → Mphf (List Byte) B} {data : List (List (List (List Byte) × F × F))} {text : Mem} {off : Nat}
    {ws : List (List Byte)} (hat : At text off (joinSp ws)) (hw : ∀ w ∈ ws, Spec.IsWord w) (hrec : Spec.GramsRecognised hs data ws)
    {g : List ByteRange} (hg : Scorer.Occurs (wordRanges off ws) g) : MphProb.IsGram hs data text g := by
  obtain ⟨i, k, hi, hk, rfl⟩ := hg
  rw [wordRanges_length] at hi
  have hrev : (((wordRanges off ws).take (i + 1)).reverse.take k).reverse =
      wordRanges (off + (spaced ((ws.take (i + 1)).take (i + 1 - k))).length) ((ws.take (i + 1)).drop (i + 1 - k)) := by
    rw [List.take_reverse, List.reverse_reverse, wordRanges_take, wordRanges_drop, wordRanges_length, List.length_take, Nat.min_eq_left (by omega)]
  have hsplit : ws = (ws.take (i + 1)).take (i + 1 - k) ++ (ws.take (i + 1)).drop (i + 1 - k) ++ ws.drop (i + 1) := by
    rw [List.take_append_drop, List.take_append_drop]
  have hne : (ws.take (i + 1)).drop (i + 1 - k) ≠ [] := by
    intro h0
    have := congrArg List.length h0
    simp at this; omega
  generalize (ws.take (i + 1)).drop (i + 1 - k) = gs at *
  generalize (ws.take (i + 1)).take (i + 1 - k) = as at *
  generalize ws.drop (i + 1) = bs at *
  subst hsplit
  exact ⟨_, gs, at_infix hat hne, fun w hw' => hw w (by simp [hw']), hrev, fun k f hf hl => hrec k f hf gs ⟨as, bs, rfl⟩ hl⟩

theorem at_lines {text : List (List (List Byte))} {mem : Mem} {off : Nat} (h : At mem off (textOf text)) {r : List ByteRange} :
    ∀ {i : Nat}, (lineRanges off text)[i]? = some r → ∃ l o, text[i]? = some l ∧ r = wordRanges o l ∧ At mem o (joinSp l) := by
  induction text generalizing off with
  | nil => intro i hi; simp [lineRanges] at hi
  | cons l ls ih =>
    intro i hi
    have h' : At mem off (joinSp l ++ [nl] ++ textOf ls) := h
    obtain ⟨h1, h2⟩ := At.append.1 h'
    cases i with
    | zero =>
      rw [lineRanges] at hi
      simp at hi
      exact ⟨l, off, rfl, hi.symm, (At.append.1 h1).1⟩
    | succ i =>
      rw [lineRanges, List.getElem?_cons_succ] at hi
      obtain ⟨l', o, e1, e2, e3⟩ := ih (by rw [List.length_append] at h2; exact h2) hi
      exact ⟨l', o, by simpa using e1, e2, e3⟩

theorem lineRanges_slices {mem : Mem} {off : Nat} (text : List (List (List Byte))) (h : At mem off (textOf text)) :
    (lineRanges off text).map (·.map (slice mem)) = text := by
  induction text generalizing off with
  | nil => rfl
  | cons l ls ih =>
    have h' : At mem off (joinSp l ++ [nl] ++ textOf ls) := h
    obtain ⟨h1, h2⟩ := At.append.1 h'
    rw [lineRanges, List.map_cons, slices_wordRanges (At.append.1 h1).1, ih (by rw [List.length_append] at h2; exact h2)]

/-! ## Properties -/

section
variable {F : Type} [FloatArith F] {B : Nat}

/-- What the user must provide to build a hash backoff model from ARPA sections: sections that list each n-gram once, with all its prefixes and
suffixes; words without spaces; bits for the quantisation the builder accepts and that fit in a table entry; sections that fit in memory; hash functions
the builder could find; unigram values that are floats, and not two NaNs with all bits set. -/
structure Spec.MphProbInput (fb : FloatBits F) (mem pb bb : Nat) (hs : Nat → Mphf (List Byte) B) (data : List (List (List (List Byte) × F × F))) : Prop where
  arpa : Spec.ArpaFiles data
  bytes : Spec.ByteSections mem data
  quant : Spec.Quantisable data pb bb
  hashes : ∀ (k : Nat) (f : List (List (List Byte) × F × F)), data[k]? = some f → (hs k).BuiltFrom (f.map fun r => joinSp r.1)
  bits : B = 64 ∧ pb + bb ≤ 63 ∧ (∀ f ∈ data, f.length ≤ 2 ^ 57) ∨ B = 32 ∧ pb + bb ≤ 32 ∧ ∀ f ∈ data, f.length ≤ 2 ^ 25
  floats : ∀ f0, data[0]? = some f0 → ∀ r ∈ f0, fb.dec (fb.enc r.2.1) = r.2.1 ∧ fb.dec (fb.enc r.2.2) = r.2.2
  notNaN : ∀ f0, data[0]? = some f0 → ∀ r ∈ f0, pack (fb.enc r.2.1) (fb.enc r.2.2) ≠ notFound

theorem MphProb.correct (fb : FloatBits F) {sort : List F → List F} (negInf default unk : F) {mem pb bb : Nat} (extra : Nat)
    {hs : Nat → Mphf (List Byte) B} {data : List (List (List (List Byte) × F × F))} (h : Spec.MphProbInput fb mem pb bb hs data)
    {ps bs : List (List F)} (hcb : Quant.codebooks sort negInf pb bb data = some (.ok (ps, bs))) (hc : Quant.Codes data pb bb ps bs) :
    ∃ m A, MphProb.build fb sort negInf default unk mem extra hs pb bb (Spec.lines data) = some (.ok m) ∧
      A = Spec.Arpa.ofData data (Spec.unkProb Spec.unkText default (data.getD 0 []) unk) (Quant.quantiser ps 0) (Quant.quantiser bs 1) ∧
      A.WellFormed ∧ ∀ text : Mem, Nonempty (Scorer.Implements (m.scorer fb text) (A.comap (slice text)) (MphProb.IsGram hs data text) (fun r => r.1)) := by
  obtain ⟨m, e1, e2, e3⟩ := MphProb.build_ok fb (sort := sort) negInf default unk (extra := extra) h.arpa h.bytes h.hashes h.bits h.quant.probs.1 hcb hc
  refine ⟨m, _, e1, rfl, ArpaData.wellFormed data _ _ _ h.arpa, fun text => ?_⟩
  have hb : pb + bb ≤ 63 := by rcases h.bits with ⟨-, h1, -⟩ | ⟨-, h1, -⟩ <;> omega
  have I := MphProb.implements text h.floats h.notNaN hb h.arpa h.bytes e2 hc
  have h0 : ((data.getD 0 []).map (·.1)).Nodup := by
    have hm : data.getD 0 [] ∈ data := by
      rw [List.getD_eq_getElem?_getD, List.getElem?_eq_getElem (by have := h.arpa.order_min; omega)]
      exact List.getElem_mem _
    exact h.arpa.distinct _ hm
  rw [e3, findUnk_spec unkBytes default (data.getD 0 []) unk h0] at I
  exact ⟨I⟩

/-- **C28** (exact).  A hash backoff model scores the words of any sentence of a text like the ARPA model of the (quantised) sections, with the
context the released code keeps (`wordScores`, as for the trie). -/
theorem C28_mph_sentence_scores (fb : FloatBits F) {sort : List F → List F} (hsort : ∀ l, (sort l).Perm l ∧ (sort l).Pairwise (· ≤ ·))
    (negInf default unk : F) {mem pb bb : Nat} (extra : Nat) {hs : Nat → Mphf (List Byte) B} {data : List (List (List (List Byte) × F × F))}
    (h : Spec.MphProbInput fb mem pb bb hs data) :
    ∃ m qp qb, MphProb.build fb sort negInf default unk mem extra hs pb bb (Spec.lines data) = some (.ok m) ∧ Spec.Quantised data pb bb qp qb ∧
      ∀ (text : Mem) (off : Nat) (sentence : List (List Byte)) (d : Nat) (one : F), At text off (joinSp sentence) →
        (∀ w ∈ sentence, Spec.IsWord w) → Spec.GramsRecognised hs data sentence →
        (m.scorer fb text).scoreSentence d one (wordRanges off sentence) =
          some ((Spec.Arpa.ofData data (Spec.unkProb Spec.unkText default (data.getD 0 []) unk) qp qb).wordScores sentence) := by
  obtain ⟨ps, bs, hcb, hc, hq⟩ := Quant.codebooks_ok hsort negInf h.arpa.order_min h.quant
  obtain ⟨m, A, e1, rfl, wf, hI⟩ := MphProb.correct fb (sort := sort) negInf default unk extra h hcb hc
  refine ⟨m, _, _, e1, hq, fun text off sentence d one hat hw hrec => ?_⟩
  obtain ⟨I⟩ := hI text
  rw [Scorer.scoreSentence_eq I (Spec.Arpa.comap_wellFormed wf _) d one _ fun g hg => occurs_isGram hat hw hrec hg, Spec.Arpa.comap_wordScores,
    slices_wordRanges hat]

/-- **C28** (textbook).  If each context of a listed n-gram has a non-zero backoff (which the file decides, see C27), the score of each word is the
textbook backoff score with all the `order - 1` words before it. -/
theorem C28_mph_textbook_scores (fb : FloatBits F) {sort : List F → List F} (hsort : ∀ l, (sort l).Perm l ∧ (sort l).Pairwise (· ≤ ·))
    (negInf default unk : F) {mem pb bb : Nat} (extra : Nat) {hs : Nat → Mphf (List Byte) B} {data : List (List (List (List Byte) × F × F))}
    (h : Spec.MphProbInput fb mem pb bb hs data) (hm : Spec.ContextsMatter data) :
    ∃ m qp qb, MphProb.build fb sort negInf default unk mem extra hs pb bb (Spec.lines data) = some (.ok m) ∧ Spec.Quantised data pb bb qp qb ∧
      ∀ A, A = Spec.Arpa.ofData data (Spec.unkProb Spec.unkText default (data.getD 0 []) unk) qp qb →
      ∀ (text : Mem) (off : Nat) (sentence : List (List Byte)) (d : Nat) (one : F), At text off (joinSp sentence) →
        (∀ w ∈ sentence, Spec.IsWord w) → Spec.GramsRecognised hs data sentence →
        (m.scorer fb text).scoreSentence d one (wordRanges off sentence) =
          some (sentence.mapIdx fun i w => (A.scoreAt sentence i w, (A.entry [w]).isNone)) := by
  obtain ⟨m, qp, qb, e1, hq, e2⟩ := C28_mph_sentence_scores fb hsort negInf default unk extra h
  refine ⟨m, qp, qb, e1, hq, ?_⟩
  rintro A rfl text off sentence d one hat hw hrec
  rw [e2 text off sentence d one hat hw hrec,
    Scorer.wordScores_textbook (ArpaData.wellFormed data _ _ _ h.arpa) (ArpaData.nonZeroContexts h.arpa hm hq _)]

/-- **C28** (same scores as the trie).  A hash model and a trie built from the same sections with the same options give the same scores, and the same
OOV flags, to the words of every sentence (for the trie the words are given as strings, for the hash model as ranges of the text). -/
theorem C28_same_scores_as_trie (fb : FloatBits F) {sort : List F → List F} (hsort : ∀ l, (sort l).Perm l ∧ (sort l).Pairwise (· ≤ ·))
    (negInf default unk : F) {mem pb bb : Nat} (extra : Nat) {hs : Nat → Mphf (List Byte) B} {data : List (List (List (List Byte) × F × F))}
    (h : Spec.MphProbInput fb mem pb bb hs data) {U : List (List Byte)} {ro : Nat} (ht : Spec.ProbFiles U data ro) (hbits : pb + bb ≤ 58)
    {hv : Mphf (List Byte) 64} (hb : hv.BuiltFrom U) {hr : Nat → Mphf Nat 64} (hh : Spec.RangeHashes hr (TrieProb.asCounts data))
    {junk : Nat → List W} (hj : ∀ k, junk k ≠ []) :
    ∃ m t, MphProb.build fb sort negInf default unk mem extra hs pb bb (Spec.lines data) = some (.ok m) ∧
      TrieProb.build fb sort negInf unkBytes default hv (GramsImpl.fastEF hr) (RanksImpl.cv junk) ro unk pb bb data = some (.ok t) ∧
      ∀ (text : Mem) (off : Nat) (sentence : List (List Byte)) (d d' : Nat) (one one' : F), At text off (joinSp sentence) →
        (∀ w ∈ sentence, Spec.IsWord w) → Spec.GramsRecognised hs data sentence → (∀ w ∈ sentence, Spec.Recognised hv U w) →
        ∃ scores, (m.scorer fb text).scoreSentence d one (wordRanges off sentence) = some scores ∧
          (t.scorer fb).scoreSentence d' one' sentence = some scores := by
  obtain ⟨ps, bs, hcb, hc, hq⟩ := Quant.codebooks_ok hsort negInf h.arpa.order_min h.quant
  obtain ⟨m, A, e1, rfl, wf, hI⟩ := MphProb.correct fb (sort := sort) negInf default unk extra h hcb hc
  obtain ⟨t, t1, t2, t3⟩ := TrieProb.build_ok fb (sort := sort) negInf unkBytes default unk ht hb hh hj hbits hcb hc
  refine ⟨m, t, e1, t1, fun text off sentence d d' one one' hat hw hrec hrec' =>
    ⟨(Spec.Arpa.ofData data (Spec.unkProb Spec.unkText default (data.getD 0 []) unk) (Quant.quantiser ps 0) (Quant.quantiser bs 1)).wordScores sentence, ?_, ?_⟩⟩
  · obtain ⟨I⟩ := hI text
    rw [Scorer.scoreSentence_eq I (Spec.Arpa.comap_wellFormed wf _) d one _ fun g hg => occurs_isGram hat hw hrec hg, Spec.Arpa.comap_wordScores,
      slices_wordRanges hat]
  · have I := TrieProb.implements_all h.floats ht t2 hc
    have hf0 : data[0]? = some (data.getD 0 []) := by
      rw [List.getD_eq_getElem?_getD, List.getElem?_eq_getElem (by have := h.arpa.order_min; omega)]; rfl
    rw [t3 _ hf0, findUnk_spec unkBytes default _ unk (h.arpa.distinct _ (List.mem_of_getElem? hf0))] at I
    exact Scorer.scoreSentence_eq I wf d' one' _ fun g hg w hw => hrec' w (occurs_mem hg w hw)

/-- **C30** (hash model).  Scoring a text file whose lines end with a newline: reading its lines and words (C31) succeeds, and the totals reported are the
sums of contributions of the sentences, each the result of scoring that sentence alone. -/
theorem C30_mph_corpus_totals (fb : FloatBits F) {sort : List F → List F} (hsort : ∀ l, (sort l).Perm l ∧ (sort l).Pairwise (· ≤ ·))
    (negInf default unk : F) {mem pb bb : Nat} (extra : Nat) {hs : Nat → Mphf (List Byte) B} {data : List (List (List (List Byte) × F × F))}
    (h : Spec.MphProbInput fb mem pb bb hs data) :
    ∃ m, MphProb.build fb sort negInf default unk mem extra hs pb bb (Spec.lines data) = some (.ok m) ∧
      ∀ (text : List (List (List Byte))) (d : Nat) (one : F), (∀ l ∈ text, l ≠ [] ∧ ∀ w ∈ l, Spec.IsWord w) →
        (∀ l ∈ text, Spec.GramsRecognised hs data l) →
        ∃ rs tl, TextLines.all (textOf text) = some (rs, tl) ∧ rs.map (·.map (slice (textOf text))) = text ∧
        ∃ scores : List (List (F × Bool)), (∀ (i : Nat) r, rs[i]? = some r → scores[i]? = (m.scorer fb (textOf text)).scoreSentence d one r) ∧ scores.length = text.length ∧
        ∃ total : Totals F, (m.scorer fb (textOf text)).scoreCorpus d one rs = some total ∧
          total.sentences = text.length ∧ total.tokens = (text.map List.length).sum ∧
          total.oovs = (scores.map fun s => s.countP (·.2)).sum ∧
          total.total = (scores.map fun s => (s.map (·.1)).foldl (· + ·) 0).foldl (· + ·) 0 ∧
          total.onlyOOVs = ((scores.flatten.filter (·.2)).map (·.1)).foldl (· + ·) 0 := by
  obtain ⟨ps, bs, hcb, hc, hq⟩ := Quant.codebooks_ok hsort negInf h.arpa.order_min h.quant
  obtain ⟨m, A, e1, rfl, wf, hI⟩ := MphProb.correct fb (sort := sort) negInf default unk extra h hcb hc
  refine ⟨m, e1, fun text d one hw hrec => ?_⟩
  obtain ⟨rs, tl, r1, r2, r3, -⟩ := C31_text_lines text hw
  refine ⟨rs, tl, r1, r2, ?_⟩
  subst r3
  obtain ⟨I⟩ := hI (textOf text)
  have hat : At (textOf text) 0 (textOf text) := by unfold At; simp
  obtain ⟨scores, s1, s2, total, s3, s4, s5, s6, s7, s8⟩ := Scorer.corpus_totals I (Spec.Arpa.comap_wellFormed wf _) d one (lineRanges 0 text) (by
    intro ws hws g hg
    obtain ⟨i, hi⟩ := List.getElem?_of_mem hws
    obtain ⟨l, o, e1, rfl, e3⟩ := at_lines hat hi
    have hl := List.mem_of_getElem? e1
    exact occurs_isGram e3 (hw l hl).2 (hrec l hl) hg)
  have hlen : (lineRanges 0 text).length = text.length := by
    conv_rhs => rw [← r2]
    simp
  have hlens : ((lineRanges 0 text).map List.length) = text.map List.length := by
    conv_rhs => rw [← r2]
    rw [List.map_map]; apply List.map_congr_left; intro x _; simp
  exact ⟨scores, s1, by rw [s2, hlen], total, s3, by rw [s4, hlen], by rw [s5, hlens], s6, s7, s8⟩

end

/-! ## A concrete model -/

namespace MphProbExample

open TrieProbExample (sortQ sortQ_ok fbQ)

/-- The words a, b, c, ... -/
def w (i : Nat) : List Byte := [BitVec.ofNat 8 (97 + i)]

/-- A trigram model over the words a, b, c. -/
def data : List (List (List (List Byte) × ℚ × ℚ)) :=
  [[([w 0], -2, -1), ([w 1], -3, -1), ([w 2], -3, -1)],
   [([w 1, w 0], -1/2, -1/8), ([w 2, w 0], -1/2, -1/8), ([w 0, w 1], -1/2, -1/8), ([w 1, w 2], -1/2, -1/8)],
   [([w 0, w 1, w 0], -1/4, 0), ([w 1, w 2, w 0], -1/4, 0), ([w 2, w 0, w 1], -1/4, 0), ([w 0, w 1, w 2], -1/4, 0)]]

/-- The hash functions. -/
def hs (k : Nat) : Mphf (List Byte) 64 :=
  if k = 0 then TextExample.mphf3 ((data.getD k []).map fun r => joinSp r.1) else TextExample.mphf4 ((data.getD k []).map fun r => joinSp r.1)

theorem w_word (i : Nat) (hi : i < 8) : Spec.IsWord (w i) := by
  intro b hb
  simp [w] at hb; subst hb
  have : i = 0 ∨ i = 1 ∨ i = 2 ∨ i = 3 ∨ i = 4 ∨ i = 5 ∨ i = 6 ∨ i = 7 := by omega
  rcases this with rfl | rfl | rfl | rfl | rfl | rfl | rfl | rfl <;> decide

theorem hs_built (k : Nat) (f : List (List (List Byte) × ℚ × ℚ)) (h : data[k]? = some f) : (hs k).BuiltFrom (f.map fun r => joinSp r.1) := by
  have hf : data.getD k [] = f := by rw [List.getD_eq_getElem?_getD, h]; rfl
  unfold hs
  rw [hf]
  rcases k with _ | _ | _ | k
  · simp [data] at h; subst h; exact TextExample.built3 rfl (by decide)
  · simp [data] at h; subst h; exact TextExample.built4 rfl (by decide)
  · simp [data] at h; subst h; exact TextExample.built4 rfl (by decide)
  · simp [data] at h

theorem data_input : Spec.MphProbInput fbQ 200 2 2 hs data where
  arpa := by
    refine ⟨by simp [data], by simp [data], ?_, ?_, ?_, ?_, ?_⟩
    · intro k l h; rcases k with _ | _ | _ | k <;> simp [data] at h <;> subst h <;> simp
    · intro f hf; simp [data] at hf; rcases hf with rfl | rfl | rfl <;> simp [w]
    · intro f hf; simp [data] at hf; rcases hf with rfl | rfl | rfl <;> simp
    · intro k l l' h h'; rcases k with _ | _ | _ | k <;> simp [data] at h h' <;> subst h h' <;> simp
    · intro k l l' h h'; rcases k with _ | _ | _ | k <;> simp [data] at h h' <;> subst h h' <;> simp
  bytes := by
    refine ⟨?_, ?_⟩
    · intro f hf r hr v hv
      have : v ∈ [w 0, w 1, w 2] := by
        simp [data] at hf
        rcases hf with rfl | rfl | rfl
        · simp at hr; rcases hr with rfl | rfl | rfl <;> simp at hv ⊢ <;> simp [hv]
        · simp at hr; rcases hr with rfl | rfl | rfl | rfl <;> simp at hv ⊢ <;> rcases hv with rfl | rfl <;> simp
        · simp at hr; rcases hr with rfl | rfl | rfl | rfl <;> simp at hv ⊢ <;> rcases hv with rfl | rfl | rfl <;> simp
      simp at this
      rcases this with rfl | rfl | rfl <;> exact ⟨w_word _ (by decide), by simp [w]⟩
    · intro f hf; simp [data] at hf; rcases hf with rfl | rfl | rfl <;> simp [w, joinSp]
  quant := by
    refine ⟨by decide, by decide, ?_, ?_, fun _ _ => trivial, fun _ _ => trivial⟩
    · intro f hf; simp [data] at hf; rcases hf with rfl | rfl <;> simp
    · intro f hf; simp [data] at hf; subst hf; right; simp
  hashes := hs_built
  bits := .inl ⟨rfl, by decide, by intro f hf; simp [data] at hf; rcases hf with rfl | rfl | rfl <;> simp⟩
  floats := by
    intro f0 hf r hr
    simp [data] at hf; subst hf
    simp at hr
    rcases hr with rfl | rfl | rfl <;> exact ⟨by decide +kernel, by decide +kernel⟩
  notNaN := by
    intro f0 hf r hr
    simp [data] at hf; subst hf
    simp at hr
    rcases hr with rfl | rfl | rfl <;> decide +kernel

theorem recognised (ws : List (List Byte)) : Spec.GramsRecognised hs data ws := by
  intro k f h g _ _
  have hf : data.getD k [] = f := by rw [List.getD_eq_getElem?_getD, h]; rfl
  unfold hs
  rw [hf]
  rcases k with _ | _ | _ | k
  · simp [data] at h; subst h; exact TextExample.recognised3 rfl _
  · simp [data] at h; subst h; exact TextExample.recognised4 rfl _
  · simp [data] at h; subst h; exact TextExample.recognised4 rfl _
  · simp [data] at h

theorem data_matter : Spec.ContextsMatter data where
  nonpos := by intro f hf; simp [data] at hf; rcases hf with rfl | rfl <;> simp <;> norm_num
  nonzero := by
    intro k f f' h h'
    rcases k with _ | _ | _ | k <;> simp [data] at h h' <;> subst h h' <;> simp [w]

/-- Quantising sections whose values are all equal changes nothing. -/
theorem data_exact {qp qb : Nat → ℚ → ℚ} (hq : Spec.Quantised data 2 2 qp qb) (unk : ℚ) :
    Spec.Arpa.ofData data unk qp qb = Spec.Arpa.ofData data unk (fun _ v => v) (fun n v => if n = 2 then v else qb n v) := by
  apply Spec.Arpa.ofData_congr
  have h1 : qp 2 (-1/2) = -1/2 := by
    obtain ⟨code, -, c2, c3⟩ := hq.probs 0 _ rfl
    obtain ⟨m, -⟩ := c3 ([w 1, w 0], -1/2, -1/8) (by simp)
    obtain ⟨⟨r, hr, hr1⟩, s, hs, hs1⟩ := c2 _ m
    have e1 : r.2.1 = -1/2 := by simp at hr; rcases hr with rfl | rfl | rfl | rfl <;> rfl
    have e2 : s.2.1 = -1/2 := by simp at hs; rcases hs with rfl | rfl | rfl | rfl <;> rfl
    rw [e1] at hr1; rw [e2] at hs1
    exact le_antisymm hs1 hr1
  have h2 : qp 3 (-1/4) = -1/4 := by
    obtain ⟨code, -, c2, c3⟩ := hq.probs 1 _ rfl
    obtain ⟨m, -⟩ := c3 ([w 0, w 1, w 0], -1/4, 0) (by simp)
    obtain ⟨⟨r, hr, hr1⟩, s, hs, hs1⟩ := c2 _ m
    have e1 : r.2.1 = -1/4 := by simp at hr; rcases hr with rfl | rfl | rfl | rfl <;> rfl
    have e2 : s.2.1 = -1/4 := by simp at hs; rcases hs with rfl | rfl | rfl | rfl <;> rfl
    rw [e1] at hr1; rw [e2] at hs1
    exact le_antisymm hs1 hr1
  have h3 : qb 2 (-1/8) = -1/8 := by
    obtain ⟨-, nz⟩ := hq.backoffs 0 _ rfl (by simp [data])
    obtain ⟨code, -, c2, c3⟩ := nz ⟨([w 1, w 0], -1/2, -1/8), by simp, by norm_num⟩
    obtain ⟨m, -⟩ := c3 ([w 1, w 0], -1/2, -1/8) (by simp) (by norm_num)
    obtain ⟨⟨r, hr, -, hr1⟩, s, hs, -, hs1⟩ := c2 _ m
    have e1 : r.2.2 = -1/8 := by simp at hr; rcases hr with rfl | rfl | rfl | rfl <;> rfl
    have e2 : s.2.2 = -1/8 := by simp at hs; rcases hs with rfl | rfl | rfl | rfl <;> rfl
    rw [e1] at hr1; rw [e2] at hs1
    exact le_antisymm hs1 hr1
  intro f hf r hr
  simp [data] at hf
  rcases hf with rfl | rfl
  · simp at hr
    rcases hr with rfl | rfl | rfl | rfl <;> exact ⟨h1, h3⟩
  · simp at hr
    rcases hr with rfl | rfl | rfl | rfl <;> exact ⟨h2, rfl⟩

/-- The hypotheses of C28 are met, with an unknown word in the sentence: the words of the text "a b c e a" get -2, -1/2 (bigram), -1/4 (trigram), the
probability of unknown words plus the backoffs of "c" and of "b c", and -2. -/
example : ∃ m, MphProb.build fbQ sortQ (-1000) (-100) (-100) 200 0 hs 2 2 (Spec.lines data) = some (.ok m) ∧
    (m.scorer fbQ (joinSp [w 0, w 1, w 2, w 4, w 0])).scoreSentence 7 1 (wordRanges 0 [w 0, w 1, w 2, w 4, w 0]) =
      some [(-2, false), (-1/2, false), (-1/4, false), (-100 - 1 - 1/8, true), (-2, false)] := by
  obtain ⟨m, qp, qb, e1, e2, e3⟩ := C28_mph_textbook_scores fbQ sortQ_ok (-1000) (-100) (-100) 0 data_input data_matter
  refine ⟨m, e1, ?_⟩
  rw [e3 _ rfl _ 0 [w 0, w 1, w 2, w 4, w 0] 7 1 (by unfold At; simp) (by
    intro v hv
    simp at hv
    rcases hv with rfl | rfl | rfl | rfl | rfl <;> exact w_word _ (by decide)) (recognised _), data_exact e2]
  simp [Spec.Arpa.scoreAt, Spec.Arpa.lastN, Spec.Arpa.score, Spec.Arpa.backoff, Spec.Arpa.ofData, data, Spec.unkProb, w, ← unkBytes_eq, unkBytes]
  norm_num

theorem data_trie : Spec.ProbFiles [w 0, w 1, w 2] data 1 where
  arpa := data_input.arpa
  trie := by
    refine ⟨by decide, rfl, ?_, ?_, ?_, ?_, ?_, ?_⟩
    · intro k l h; rcases k with _ | _ | _ | k <;> simp [data] at h <;> subst h <;> simp
    · intro k l h; rcases k with _ | _ | _ | k <;> simp [data] at h <;> subst h <;> simp
    · intro k l h; rcases k with _ | _ | _ | k <;> simp [data] at h <;> subst h <;> simp [w]
    · intro k l h; rcases k with _ | _ | _ | k <;> simp [data] at h <;> subst h <;> decide
    · intro k l l' h h'; rcases k with _ | _ | _ | k <;> simp [data] at h h' <;> subst h h' <;> simp
    · refine Trie.windows_of_suffixes ?_
      intro _ k l l' h h'; rcases k with _ | _ | _ | k <;> simp [data] at h h' <;> subst h h' <;> simp
  remapping := by decide
  size := by intro f hf; simp [data] at hf; rcases hf with rfl | rfl | rfl <;> simp

theorem data_hashes : Spec.RangeHashes (fun _ => FastEF.exMphf) (TrieProb.asCounts data) := by
  intro k f g h h' hn
  rcases k with _ | _ | _ | k <;> simp [data, TrieProb.asCounts] at h h' <;> subst h h' <;> exact absurd (by decide +kernel) hn

/-- The hypotheses of `C28_same_scores_as_trie` are met by the same data. -/
example := C28_same_scores_as_trie fbQ sortQ_ok (-1000) (-100) (-100) 0 data_input data_trie (by decide)
  (TextExample.built3 (keys := [w 0, w 1, w 2]) rfl (by decide)) data_hashes (junk := fun _ => [0#64]) (by simp)

/-- The hypotheses of `C30_mph_corpus_totals` are met by the same data and the text "a b\nd c a\n". -/
example : ∃ m, MphProb.build fbQ sortQ (-1000) (-100) (-100) 200 0 hs 2 2 (Spec.lines data) = some (.ok m) ∧
    ∃ rs, ∃ total : Totals ℚ, (m.scorer fbQ (textOf [[w 0, w 1], [w 3, w 2, w 0]])).scoreCorpus 0 1 rs = some total ∧ total.sentences = 2 ∧ total.tokens = 5 := by
  obtain ⟨m, e1, e2⟩ := C30_mph_corpus_totals fbQ sortQ_ok (-1000) (-100) (-100) 0 data_input
  obtain ⟨rs, _, _, _, _, _, _, total, t1, t2, t3, _⟩ := e2 [[w 0, w 1], [w 3, w 2, w 0]] 0 1 (by
    intro l hl
    simp at hl
    rcases hl with rfl | rfl
    · refine ⟨by simp, fun v hv => ?_⟩
      simp at hv; rcases hv with rfl | rfl <;> exact w_word _ (by decide)
    · refine ⟨by simp, fun v hv => ?_⟩
      simp at hv; rcases hv with rfl | rfl | rfl <;> exact w_word _ (by decide)) fun l _ => recognised l
  exact ⟨m, e1, rs, total, t1, t2, t3⟩

end MphProbExample

end Tongrams
