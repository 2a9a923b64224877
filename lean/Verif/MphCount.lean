import Verif.MphText

/-!
# C26: `mph_count_lm` (mph_count_lm.hpp)

An n-gram is its bytes: words separated by single spaces.
-/

namespace Tongrams

/-- `mph_count_lm`, members: mph_count_lm.hpp:115-117. -/
structure MphCount (B : Nat) where
  order : Nat
  counts : List CompactVector
  tables : List (SVTable (List Byte) B)

namespace MphCount
variable {B : Nat}

/-- What `rank` returns, as a value for `push_back`; an exception ends the construction. -/
def rankValue (pairs : List (Nat × Nat)) (v : Nat) : Option W :=
  (SeqColl.rank pairs v).bind fun
    | .ok r => some (BitVec.ofNat 64 r)
    | .error _ => none

/-- The table of one order (mph_count_lm.hpp:44-65), the records of the file having been loaded in a pool of `mem` bytes; `c` is the collection
of the counts of the order. -/
def buildTable (mem extra : Nat) (h : Mphf (List Byte) B) (c : CompactVector × List (Nat × Nat)) (file : List (List Byte × Nat)) :
    Res (SVTable (List Byte) B) :=
  Res.bind ((Pool.new mem extra).loadFrom file) fun pool =>
  Res.lift (tableOf h (ceilLog2 (BitVec.ofNat 64 (c.1.size + 1))) pool.records.length (rankValue c.2) pool.records)

/-- The constructor (mph_count_lm.hpp:17-69).  `files` lists for each order the lines of the file; `hs k` is the hash function built for the
order with index `k`.  An exception of `rank`, which never happens (C20), is taken as undefined. -/
def build (L : SortLib) (mem extra : Nat) (hs : Nat → Mphf (List Byte) B) (files : List (List (List Byte × Nat))) : Res (MphCount B) :=
  if files.length < 2 ∨ maxOrder < files.length then some (.error ()) else
  Res.bind (Res.mapM (fun f => Res.lift (SeqColl.ofValues L (f.map (·.2)))) files) fun colls =>
  Res.bind (Res.mapM (fun p => buildTable mem extra (hs p.2) p.1.2 p.1.1) (files.zip colls).zipIdx) fun ts =>
  some (.ok { order := files.length, counts := colls.map (·.1), tables := ts })

/-- `lookup` (mph_count_lm.hpp:71-78) of the n-gram with these bytes; the assertion is compiled out in release mode. -/
def lookup (m : MphCount B) (gram : List Byte) : Option Nat :=
  let order := gram.count sp
  (m.tables[order]?).bind fun t => (t.lookup gram).bind fun rank =>
  (m.counts[order]?).bind fun c => SeqColl.access c rank.toNat

end MphCount

/-- Specification: the input of a hash count model of order 2 to 8: for each order the n-grams (as lists of words) with their counts, each
n-gram once, in files that fit in `mem` bytes of memory. -/
structure Spec.CountLists (mem : Nat) (files : List (List (List (List Byte) × Nat))) : Prop where
  order_min : 2 ≤ files.length
  order_max : files.length ≤ 8
  len : ∀ (k : Nat) (f : List (List (List Byte) × Nat)), files[k]? = some f → ∀ r ∈ f, r.1.length = k + 1
  words : ∀ f ∈ files, ∀ r ∈ f, ∀ w ∈ r.1, Spec.IsWord w ∧ w ≠ []
  nonempty : ∀ f ∈ files, f ≠ []
  counts : ∀ f ∈ files, ∀ r ∈ f, r.2 < 2 ^ 64 - 1
  memory : ∀ f ∈ files, (f.map fun r => (joinSp r.1).length).sum ≤ mem

/-- Specification: the text of the files: the words of an n-gram are separated by spaces. -/
def Spec.lines {V : Type} (files : List (List (List (List Byte) × V))) : List (List (List Byte × V)) :=
  files.map (·.map fun r => (joinSp r.1, r.2))

/-! ## Proofs -/

theorem joinSp_ne_nil {ws : List (List Byte)} (h : ws ≠ []) (hw : ∀ w ∈ ws, w ≠ []) : joinSp ws ≠ [] := by
  cases ws with
  | nil => exact absurd rfl h
  | cons w ws =>
    have := hw w List.mem_cons_self
    cases ws with
    | nil => exact this
    | cons v vs => simp [joinSp]

theorem Res.mapM_get {α β : Type} {f : α → Res β} {P : Nat → α → β → Prop} : ∀ {l : List α},
    (∀ (i : Nat) a, l[i]? = some a → ∃ b, f a = some (.ok b) ∧ P i a b) →
    ∃ bs : List β, Res.mapM f l = some (.ok bs) ∧ bs.length = l.length ∧ ∀ (i : Nat) a b, l[i]? = some a → bs[i]? = some b → P i a b := by
  intro l
  induction l generalizing P with
  | nil => intro _; exact ⟨[], rfl, rfl, by simp⟩
  | cons a l ih =>
    intro h
    obtain ⟨b, h1, h2⟩ := h 0 a rfl
    obtain ⟨bs, h3, h4, h5⟩ := ih (P := fun i => P (i + 1)) fun i x hx => h (i + 1) x hx
    refine ⟨b :: bs, ?_, by simp [h4], ?_⟩
    · rw [Res.mapM, h1, Res.bind_ok, h3, Res.bind_ok]
    · intro i x y hx hy
      cases i with
      | zero => simp at hx hy; subst hx hy; exact h2
      | succ i => exact h5 i x y (by simpa using hx) (by simpa using hy)

namespace MphCount
variable {B : Nat}

theorem buildTable_ok {L : SortLib} (hL : L.Valid) {mem extra : Nat} {h : Mphf (List Byte) B} {file : List (List Byte × Nat)}
    (hne : file ≠ []) (hk : ∀ r ∈ file, r.1 ≠ []) (hc : ∀ r ∈ file, r.2 < 2 ^ 64 - 1) (hm : (file.map (·.1.length)).sum ≤ mem)
    (hb : h.BuiltFrom (file.map (·.1))) (hB : B = 64 ∨ (B = 32 ∧ file.length < 2 ^ 26)) (hn : file.length < 2 ^ 57) :
    ∃ c t, SeqColl.ofValues L (file.map (·.2)) = some c ∧ buildTable mem extra h c file = some (.ok t) ∧
      ∀ r ∈ file, ∃ x, t.lookup r.1 = some x ∧ SeqColl.access c.1 x.toNat = some r.2 := by
  obtain ⟨cv, pairs, e1, e2, e3, -, -⟩ := C20_access_inverts_rank hL (vals := file.map (·.2)) (by
    intro v hv; obtain ⟨r, hr, rfl⟩ := List.mem_map.1 hv; exact hc r hr) (by simp; omega)
  have hsz : cv.size ≤ file.length := by
    rw [e2]
    have := List.Sublist.length_le (List.dedup_sublist (file.map (·.2)))
    simpa using this
  have hsz1 : 1 ≤ cv.size := by
    obtain ⟨r, hr⟩ := List.exists_mem_of_ne_nil file hne
    obtain ⟨x, -, hx, -⟩ := e3 r.2 (List.mem_map_of_mem hr)
    omega
  have hcl := ceilLog2_spec (BitVec.ofNat 64 (cv.size + 1))
  rw [BitVec.toNat_ofNat, Nat.mod_eq_of_lt (by omega)] at hcl
  obtain ⟨p, e4, e5⟩ := (C40_load_from mem extra file).1 hm
  have hfil : file.filter (fun l => decide (l.1 ≠ [])) = file := List.filter_eq_self.2 fun r hr => by simpa using hk r hr
  rw [hfil] at e5
  have hrk : ∀ r ∈ file, ∃ x, rankValue pairs r.2 = some x ∧ x.toNat < cv.size ∧ SeqColl.access cv x.toNat = some r.2 := by
    intro r hr
    obtain ⟨k, h1, h2, h3⟩ := e3 r.2 (List.mem_map_of_mem hr)
    refine ⟨BitVec.ofNat 64 k, by unfold rankValue; rw [h1, Option.bind_some], ?_⟩
    rw [BitVec.toNat_ofNat, Nat.mod_eq_of_lt (by omega)]
    exact ⟨h2, h3⟩
  have hvs := Trie.mapM_eq_map (f := fun r : List Byte × Nat => rankValue pairs r.2) (g := fun r => (rankValue pairs r.2).getD 0) (l := file) fun r hr => by
    obtain ⟨x, h1, -⟩ := hrk r hr
    rw [h1]; rfl
  generalize hw : ceilLog2 (BitVec.ofNat 64 (cv.size + 1)) = w at *
  have hw1 : 1 ≤ w := by
    rcases Nat.eq_zero_or_pos w with h0 | h0
    · rw [h0] at hcl; omega
    · exact h0
  have hwle : ∀ m, file.length < 2 ^ m → w ≤ m + 1 := by
    intro m hm
    by_contra hgt
    have h1 := hcl.2.1 (by omega)
    have h2 : 2 ^ m * 2 ≤ 2 ^ (w - 1) := by rw [← Nat.pow_succ]; exact Nat.pow_le_pow_right (by omega) (by omega)
    omega
  have hw58 := hwle 57 hn
  obtain ⟨t, t1, t2, -⟩ := tableOf_ok (width := w) hb hne hvs (by
      intro v hv
      obtain ⟨r, hr, rfl⟩ := List.mem_map.1 hv
      obtain ⟨x, h1, h2, -⟩ := hrk r hr
      rw [h1]
      show x.toNat < _
      omega) hw1 (by
      rcases hB with h | ⟨h, h'⟩
      · exact .inl ⟨h, by omega⟩
      · have := hwle 26 h'
        exact .inr ⟨h, .inl (by omega)⟩) (by
      rcases hB with rfl | ⟨rfl, h'⟩
      · calc file.length * (64 + w) ≤ 2 ^ 57 * 128 := Nat.mul_le_mul (by omega) (by omega)
          _ = 2 ^ 64 := by norm_num
      · have := hwle 26 h'
        calc file.length * (32 + w) ≤ 2 ^ 26 * 64 := Nat.mul_le_mul (by omega) (by omega)
          _ = 2 ^ 32 := by norm_num)
  refine ⟨(cv, pairs), t, e1, ?_, ?_⟩
  · unfold buildTable
    rw [e4, Res.bind_ok, e5]
    show Res.lift (tableOf h (ceilLog2 (BitVec.ofNat 64 (cv.size + 1))) _ _ _) = _
    rw [hw, t1]; rfl
  · intro r hr
    obtain ⟨i, hi, rfl⟩ := List.mem_iff_getElem.1 hr
    obtain ⟨v, -, h2, h3⟩ := t2 i _ (List.getElem?_eq_getElem hi)
    obtain ⟨x, h4, -, h5⟩ := hrk _ hr
    rw [h2] at h4; cases h4
    exact ⟨v, h3, h5⟩

end MphCount

/-! ## Property -/

/-- **C26**.  A hash count model built from n-gram files returns for each n-gram of the files the count in the file. -/
theorem C26_stored_gram_returns_its_count {B : Nat} {L : SortLib} (hL : L.Valid) {mem extra : Nat} {files : List (List (List (List Byte) × Nat))}
    (h : Spec.CountLists mem files) (hB : B = 64 ∨ (B = 32 ∧ ∀ f ∈ files, f.length < 2 ^ 26)) (hn : ∀ f ∈ files, f.length < 2 ^ 57)
    {hs : Nat → Mphf (List Byte) B}
    (hb : ∀ (k : Nat) (f : List (List (List Byte) × Nat)), files[k]? = some f → (hs k).BuiltFrom (f.map fun r => joinSp r.1)) :
    ∃ m, MphCount.build L mem extra hs (Spec.lines files) = some (.ok m) ∧
      ∀ f ∈ files, ∀ gram count, (gram, count) ∈ f → m.lookup (joinSp gram) = some count := by
  have hl : (Spec.lines files).length = files.length := by simp [Spec.lines]
  have hat : ∀ (k : Nat) g, (Spec.lines files)[k]? = some g → ∃ f, files[k]? = some f ∧ g = f.map fun r => (joinSp r.1, r.2) := by
    intro k g hg
    unfold Spec.lines at hg
    rw [List.getElem?_map] at hg
    obtain ⟨f, h1, h2⟩ := Option.map_eq_some_iff.1 hg
    exact ⟨f, h1, h2.symm⟩
  have hlev : ∀ (k : Nat) g, (Spec.lines files)[k]? = some g → ∃ c t, SeqColl.ofValues L (g.map (·.2)) = some c ∧
      MphCount.buildTable mem extra (hs k) c g = some (.ok t) ∧ ∀ r ∈ g, ∃ x, t.lookup r.1 = some x ∧ SeqColl.access c.1 x.toNat = some r.2 := by
    intro k g hg
    obtain ⟨f, hf, rfl⟩ := hat k g hg
    have hfm := List.mem_of_getElem? hf
    refine MphCount.buildTable_ok hL (by simpa using h.nonempty f hfm) ?_ ?_ ?_ ?_ ?_ (by simpa using hn f hfm)
    · intro r hr
      obtain ⟨q, hq, rfl⟩ := List.mem_map.1 hr
      refine joinSp_ne_nil ?_ fun w hw => (h.words f hfm q hq w hw).2
      intro h0
      have := h.len k f hf q hq
      rw [h0] at this
      simp at this
    · intro r hr
      obtain ⟨q, hq, rfl⟩ := List.mem_map.1 hr
      exact h.counts f hfm q hq
    · rw [List.map_map]; exact h.memory f hfm
    · rw [List.map_map]; exact hb k f hf
    · rcases hB with h | ⟨h, h'⟩
      · exact .inl h
      · exact .inr ⟨h, by simpa using h' f hfm⟩
  obtain ⟨colls, c1, c2, c3⟩ := Res.mapM_get (f := fun f : List (List Byte × Nat) => Res.lift (SeqColl.ofValues L (f.map (·.2)))) (l := Spec.lines files)
    (P := fun _ g c => SeqColl.ofValues L (g.map (·.2)) = some c) (by
      intro k g hg
      obtain ⟨c, t, h1, -⟩ := hlev k g hg
      exact ⟨c, by rw [h1]; rfl, h1⟩)
  obtain ⟨ts, d1, d2, d3⟩ := Res.mapM_get (f := fun p : (List (List Byte × Nat) × (CompactVector × List (Nat × Nat))) × Nat => MphCount.buildTable mem extra (hs p.2) p.1.2 p.1.1)
    (l := ((Spec.lines files).zip colls).zipIdx)
    (P := fun k p t => ∀ r ∈ p.1.1, ∃ x, t.lookup r.1 = some x ∧ SeqColl.access p.1.2.1 x.toNat = some r.2) (by
      intro k p hp
      rw [List.getElem?_zipIdx, Nat.zero_add] at hp
      obtain ⟨⟨g, c⟩, h1, rfl⟩ := Option.map_eq_some_iff.1 hp
      obtain ⟨h2, h3⟩ := List.getElem?_zip_eq_some.1 h1
      obtain ⟨c', t, h4, h5, h6⟩ := hlev k g h2
      rw [c3 k g c h2 h3] at h4; cases h4
      exact ⟨t, h5, h6⟩)
  refine ⟨{ order := files.length, counts := colls.map (·.1), tables := ts }, ?_, ?_⟩
  · unfold MphCount.build
    have h1 := h.order_min
    have h2 := h.order_max
    rw [if_neg (by rw [hl]; unfold maxOrder; omega), c1, Res.bind_ok, d1, Res.bind_ok, hl]
  · intro f hf gram count hg
    obtain ⟨k, hk, rfl⟩ := List.mem_iff_getElem.1 hf
    have hfk : files[k]? = some files[k] := List.getElem?_eq_getElem hk
    have hgl : gram.length = k + 1 := h.len k _ hfk _ hg
    have hcount : (joinSp gram).count sp = k := by
      have := count_joinSp (ws := gram) (fun w hw => (h.words _ hf _ hg w hw).1) (by rintro rfl; simp at hgl)
      omega
    have hgk : (Spec.lines files)[k]? = some (files[k].map fun r => (joinSp r.1, r.2)) := by unfold Spec.lines; rw [List.getElem?_map, hfk]; rfl
    have hck : colls[k]? = some (colls[k]'(by omega)) := List.getElem?_eq_getElem _
    have hlen : ts.length = files.length := by rw [d2, List.length_zipIdx, List.length_zip]; omega
    have htk : ts[k]? = some (ts[k]'(by omega)) := List.getElem?_eq_getElem _
    obtain ⟨x, h1, h2⟩ := d3 k ((files[k].map fun r => (joinSp r.1, r.2), colls[k]'(by omega)), k) _ (by
      rw [List.getElem?_zipIdx, Nat.zero_add, (List.getElem?_zip_eq_some (z := (_, _))).2 ⟨hgk, hck⟩]; rfl) htk (joinSp gram, count) (List.mem_map.2 ⟨_, hg, rfl⟩)
    unfold MphCount.lookup
    show (ts[(joinSp gram).count sp]?).bind _ = _
    rw [hcount, htk, Option.bind_some, h1, Option.bind_some]
    show ((colls.map (·.1))[k]?).bind _ = _
    rw [List.getElem?_map, hck]
    exact h2

/-! Non-vacuity, and defects: a model of order 2 over the words a, b, c. -/
namespace MphCountExample

/-- The words a, b, c. -/
def w (i : Nat) : List Byte := [BitVec.ofNat 8 (97 + i)]
/-- The files. -/
def files : List (List (List (List Byte) × Nat)) :=
  [[([w 0], 5), ([w 1], 7), ([w 2], 5)], [([w 0, w 1], 3), ([w 0, w 2], 2), ([w 1, w 2], 3)]]
/-- The hash functions. -/
def hs (k : Nat) : Mphf (List Byte) 64 := TextExample.mphf3 ((files.getD k []).map fun r => joinSp r.1)

theorem files_ok : Spec.CountLists 100 files where
  order_min := by decide
  order_max := by decide
  len := by intro k l h; rcases k with _ | _ | k <;> simp [files] at h <;> subst h <;> simp
  words := by
    intro f hf r hr v hv
    have : v ∈ [w 0, w 1, w 2] := by
      simp [files] at hf
      rcases hf with rfl | rfl <;> simp at hr <;> rcases hr with rfl | rfl | rfl <;> simp at hv ⊢ <;> rcases hv with rfl | rfl <;> simp
    simp at this
    rcases this with rfl | rfl | rfl <;> exact ⟨fun b hb => by simp [w] at hb; subst hb; decide, by simp [w]⟩
  nonempty := by intro f hf; simp [files] at hf; rcases hf with rfl | rfl <;> simp
  counts := by intro f hf; simp [files] at hf; rcases hf with rfl | rfl <;> simp
  memory := by decide

theorem hs_built (k : Nat) (f : List (List (List Byte) × Nat)) (h : files[k]? = some f) : (hs k).BuiltFrom (f.map fun r => joinSp r.1) := by
  have hk : k < 2 := (List.getElem?_eq_some_iff.1 h).1
  have hf : files.getD k [] = f := by rw [List.getD_eq_getElem?_getD, h]; rfl
  unfold hs
  rw [hf]
  rcases k with _ | _ | k
  · simp [files] at h; subst h; exact TextExample.built3 rfl (by decide)
  · simp [files] at h; subst h; exact TextExample.built3 rfl (by decide)
  · omega

example : ∃ m, MphCount.build exLib 100 0 hs (Spec.lines files) = some (.ok m) ∧
    ∀ f ∈ files, ∀ gram count, (gram, count) ∈ f → m.lookup (joinSp gram) = some count :=
  C26_stored_gram_returns_its_count exLib_valid files_ok (.inl rfl) (by decide) hs_built

end MphCountExample

/-- C26, defect.  In a model of the bigrams "a b", "a c", "b c": the count of the stored "a c" is right, but looking up the absent "c c" uses
`not_found` as the position of its count, and looking up a trigram selects a table that does not exist; both read out of bounds. -/
theorem C26_absent_gram_defect :
    (Option.bind (MphCount.build exLib 100 0 MphCountExample.hs (Spec.lines MphCountExample.files)) fun
      | .ok m => some (m.lookup (joinSp [MphCountExample.w 0, MphCountExample.w 2]), m.lookup (joinSp [MphCountExample.w 2, MphCountExample.w 2]),
          m.lookup (joinSp [MphCountExample.w 0, MphCountExample.w 1, MphCountExample.w 2]))
      | .error () => none) = some (some 2, none, none) := by
  decide +kernel

end Tongrams
