import Verif.PropsCompactVector
import Verif.PropsBitVector
import Verif.HashCompactVector
import Verif.EliasFano

/-!
C74: sizes and positions in 64 bits.  The other files compute sizes and bit positions with unbounded naturals.  Here are the functions of the containers that compute one by
a sum or a product, with the arithmetic of `uint64_t`, and the sizes up to which both agree.  (`essentials::words_for`, a header that is not part of the repository, is taken
to be `(bits + word_bits - 1) / word_bits` in 64 bits.)
-/

set_option linter.unusedSectionVars false

namespace Tongrams

/-- `essentials::words_for<uint64_t>(n)` in 64 bits, as called at bit_vector.hpp:68, compact_vector.hpp:72. -/
def wordsFor64 (n : Nat) : Nat := (n + 63) % 2 ^ 64 / 64

theorem wordsFor64_eq {n : Nat} (h : n + 63 < 2 ^ 64) : wordsFor64 n = wordsFor n := by
  unfold wordsFor64 wordsFor; rw [Nat.mod_eq_of_lt h]

/-- `n - 1` in 64 bits. -/
def pred64 (n : Nat) : Nat := (n + (2 ^ 64 - 1)) % 2 ^ 64

theorem pred64_eq {n : Nat} (h0 : 0 < n) (h : n < 2 ^ 64) : pred64 n = n - 1 := by
  unfold pred64; omega

/-! ## compact_vector -/

namespace CVBuilder

/-- `builder(n, w)`, compact_vector.hpp:65-77, as `new`; the number of bits is computed in 64 bits. -/
def new64 (n w : Nat) : Option CVBuilder :=
  let width := if w = 0 then w + 1 else w
  if width > 64 then none
  else some { size := n, width := width, mask := maskOf w, back := 0, curBlock := 0, curShift := 0,
              bits := List.replicate (wordsFor64 (n * width % 2 ^ 64)) 0 }

/-- `builder::set(i, v)`, compact_vector.hpp:106-125, as `set`; the position and `m_size - 1` are computed in 64 bits. -/
def set64 (b : CVBuilder) (i : Nat) (v : W) : Option CVBuilder := do
  let back := if i = pred64 b.size then v else b.back
  let bits ← writeField b.bits (i * b.width % 2 ^ 64) b.width b.mask v
  return { b with back := back, bits := bits }

/-- `builder::operator[]`, compact_vector.hpp:149-158, as `get`; the position is computed in 64 bits. -/
def get64 (b : CVBuilder) (i : Nat) : Option W := readField b.bits (i * b.width % 2 ^ 64) b.width b.mask

/-- A history of `set64(i, v)` calls. -/
def sets64 (b : CVBuilder) : List (Nat × W) → Option CVBuilder
  | [] => some b
  | (i, v) :: h => (b.set64 i v).bind fun b => b.sets64 h

end CVBuilder

namespace CompactVector

/-- `compact_vector::operator[]`, compact_vector.hpp:243-252, as `get`; the position is computed in 64 bits. -/
def get64 (cv : CompactVector) (i : Nat) : Option W := readField cv.bits (i * cv.width % 2 ^ 64) cv.width cv.mask

/-- `iterator(data, i)`, compact_vector.hpp:10-15, as `begin`; the position is computed in 64 bits. -/
def begin64 (cv : CompactVector) (i : Nat) : Iter :=
  { i := i, curVal := 0, curBlock := i * cv.width % 2 ^ 64 / 64, curShift := ((i * cv.width % 2 ^ 64 % 64 : Nat) : Int) }

end CompactVector

namespace CVBuilder

theorem new64_eq {n w : Nat} (h : n * max 1 w + 63 < 2 ^ 64) : new64 n w = new n w := by
  unfold new64 new
  have hw : (if w = 0 then w + 1 else w) = max 1 w := by split <;> omega
  simp only
  rw [hw, Nat.mod_eq_of_lt (by omega), wordsFor64_eq h]

theorem set64_eq {b : CVBuilder} {i : Nat} (v : W) (hi : i < b.size) (hs : b.size < 2 ^ 64) (h : b.size * b.width < 2 ^ 64) :
    b.set64 i v = b.set i v := by
  have hp : i * b.width < 2 ^ 64 := Nat.lt_of_le_of_lt (Nat.mul_le_mul_right _ (by omega)) h
  have e1 := Nat.mod_eq_of_lt hp
  have e2 := pred64_eq (show 0 < b.size by omega) hs
  unfold set64 set
  generalize pred64 b.size = x at e2 ⊢
  generalize i * b.width % 2 ^ 64 = y at e1 ⊢
  subst e1
  subst e2
  rfl

theorem set_fields {b b' : CVBuilder} {i : Nat} {v : W} (h : b.set i v = some b') : b'.size = b.size ∧ b'.width = b.width := by
  unfold set at h
  obtain ⟨bits, -, h⟩ := Option.bind_eq_some_iff.1 h
  cases h; exact ⟨rfl, rfl⟩

theorem sets64_cons (b : CVBuilder) (i v h) : b.sets64 ((i, v) :: h) = (b.set64 i v).bind fun b => b.sets64 h := by rw [sets64]
theorem sets_cons (b : CVBuilder) (i v h) : b.sets ((i, v) :: h) = (b.set i v).bind fun b => b.sets h := by rw [sets, Option.bind_eq_bind]
theorem sets64_eq (h : List (Nat × W)) : ∀ (b : CVBuilder), (∀ p ∈ h, p.1 < b.size) → b.size < 2 ^ 64 → b.size * b.width < 2 ^ 64 →
    b.sets64 h = b.sets h := by
  induction h with
  | nil => intro b _ _ _; rw [sets64, sets]
  | cons p h ih =>
    obtain ⟨i, v⟩ := p
    intro b hp hs hw
    have hi : i < b.size := hp (i, v) List.mem_cons_self
    have e0 := set64_eq v hi hs hw
    rw [sets64_cons, sets_cons, e0]
    refine Option.bind_congr fun b' e => ?_
    obtain ⟨h1, h2⟩ := set_fields e
    refine ih b' (fun p hm => ?_) ?_ ?_
    · rw [h1]; exact hp p (List.mem_cons_of_mem _ hm)
    · rw [h1]; exact hs
    · rw [h1, h2]; exact hw

theorem sets_fields : ∀ (h : List (Nat × W)) (b b' : CVBuilder), b.sets h = some b' → b'.size = b.size ∧ b'.width = b.width := by
  intro h
  induction h with
  | nil => intro b b' e; cases e; exact ⟨rfl, rfl⟩
  | cons p h ih =>
    obtain ⟨i, v⟩ := p
    intro b b' e
    obtain ⟨b1, e1, e2⟩ := Option.bind_eq_some_iff.1 ((sets_cons b i v h).symm.trans e)
    obtain ⟨h1, h2⟩ := set_fields e1
    obtain ⟨h3, h4⟩ := ih b1 b' e2
    exact ⟨h3.trans h1, h4.trans h2⟩

theorem new_fields {n w : Nat} {b : CVBuilder} (h1 : 1 ≤ w) (h : new n w = some b) : b.size = n ∧ b.width = w := by
  unfold new at h
  rw [if_neg (show ¬ w = 0 by omega)] at h
  simp only at h
  split at h
  · cases h
  · cases h; exact ⟨rfl, rfl⟩

end CVBuilder

/-- C74: with the arithmetic of the machine, a compact vector whose `n` values of `w` bits together take less than 2^64 - 63 bits behaves as C02 says: after any history of
`set`s each entry is the last value written to it, for the builder and for the vector.  (The iterator starts in the same place, up to `end()`.) -/
theorem C74_compact_vector (n w : Nat) (h1 : 1 ≤ w) (hw : w ≤ 64) (hn : n * w + 63 < 2 ^ 64) (h : List (Nat × W))
    (hh : ∀ p ∈ h, p.1 < n ∧ p.2.toNat < 2 ^ w) :
    ∃ b b', CVBuilder.new64 n w = some b ∧ b.sets64 h = some b' ∧
      (∀ k, k < n → b'.get64 k = some (Spec.lastWrite 0#64 k h) ∧ (CompactVector.ofBuilder b').get64 k = some (Spec.lastWrite 0#64 k h)) ∧
      ∀ k, k ≤ n → (CompactVector.ofBuilder b').begin64 k = (CompactVector.ofBuilder b').begin k := by
  have hnn : n < 2 ^ 64 := by
    have : n * 1 ≤ n * w := Nat.mul_le_mul_left _ h1
    omega
  obtain ⟨b, b', e1, e2, hg⟩ := C02_set_history n w h1 hw h hh
  obtain ⟨f1, f2⟩ := CVBuilder.new_fields h1 e1
  obtain ⟨f3, f4⟩ := CVBuilder.sets_fields h b b' e2
  have hpos : ∀ k, k ≤ n → k * b'.width % 2 ^ 64 = k * b'.width := by
    intro k hk
    refine Nat.mod_eq_of_lt (Nat.lt_of_le_of_lt (Nat.mul_le_mul_right _ hk) ?_)
    rw [f4, f2]; omega
  refine ⟨b, b', ?_, ?_, fun k hk => ?_, fun k hk => ?_⟩
  · rw [CVBuilder.new64_eq (by rw [Nat.max_eq_right h1]; exact hn), e1]
  · rw [CVBuilder.sets64_eq h b (fun p hp => by rw [f1]; exact (hh p hp).1) (by rw [f1]; exact hnn) (by rw [f1, f2]; omega), e2]
  · obtain ⟨g1, g2⟩ := hg k hk
    unfold CVBuilder.get at g1
    unfold CompactVector.get at g2
    unfold CVBuilder.get64 CompactVector.get64
    rw [hpos k (by omega)]
    refine ⟨g1, ?_⟩
    show readField _ (k * b'.width % 2 ^ 64) _ _ = _
    rw [hpos k (by omega)]
    exact g2
  · unfold CompactVector.begin64 CompactVector.begin
    show CompactVector.Iter.mk _ _ (k * b'.width % 2 ^ 64 / 64) ((k * b'.width % 2 ^ 64 % 64 : Nat) : Int) = _
    rw [hpos k hk]; rfl

/-- C74, defect: the product is not checked.  A vector of 2^58 values of 64 bits is built without an error and has no words at all, so the first `set` is undefined; one of
2^58 + 1 values has one word, in which the first and the last value overwrite each other. -/
theorem C74_compact_vector_too_large_defect :
    (∃ b, CVBuilder.new64 (2 ^ 58) 64 = some b ∧ b.size = 2 ^ 58 ∧ b.bits = [] ∧ b.set64 0 5#64 = none) ∧
    ∃ b b', CVBuilder.new64 (2 ^ 58 + 1) 64 = some b ∧ b.sets64 [(0, 5#64), (2 ^ 58, 7#64)] = some b' ∧ b'.get64 0 = some 7#64 := by
  refine ⟨⟨_, rfl, rfl, rfl, rfl⟩, _, _, rfl, rfl, ?_⟩
  decide +kernel

/-- C01: `back()` of a vector that was filled is the last value. -/
theorem C01_back (w : Nat) (hw : w ≤ 64) (vs : List W) (hv : ∀ v ∈ vs, v.toNat < 2 ^ w) (hne : vs ≠ []) :
    ∃ b b', CVBuilder.new vs.length w = some b ∧ b.fill vs = some b' ∧ (CompactVector.ofBuilder b').back = some (vs.getLast hne) := by
  obtain ⟨b, b', e, e', hh, -, -⟩ := CompactVector.fill_holds w hw vs hv
  exact ⟨b, b', e, e', hh.back hne⟩

example : ∃ b b', CVBuilder.new 3 33 = some b ∧ b.fill [1#64, 2#64, 0x1ffffffff#64] = some b' ∧
    (CompactVector.ofBuilder b').back = some 0x1ffffffff#64 :=
  C01_back 33 (by decide) [1#64, 2#64, 0x1ffffffff#64] (by
    intro p hp; simp only [List.mem_cons, List.not_mem_nil, or_false] at hp; rcases hp with rfl | rfl | rfl <;> decide) (by simp)

/-! ## hash_compact_vector -/

namespace HCV

/-- `builder(n, w)`, hash_compact_vector.hpp:19-36, as `new`; the number of words is computed in 64 bits.  (`set` and `operator[]` of HashCompactVector.lean already compute
their positions in the width of `hash_t`.) -/
def new64 (B n w : Nat) : Option (HCV B) :=
  if w = 0 then none
  else if w > 64 then none
  else some { size := n, width := w,
              mask := (if w = B ∨ w = 64 then BitVec.allOnes 64 else 0#64) |||
                (if w = 64 then BitVec.allOnes 64 else (1#64 <<< w) - 1#64),
              bits := List.replicate ((n * (B + w) % 2 ^ 64 + (B - 1)) % 2 ^ 64 / B) 0 }

theorem new64_eq {B n w : Nat} (h : n * (B + w) + B ≤ 2 ^ 64) (hB : 0 < B) : new64 B n w = new B n w := by
  unfold new64 new
  have e1 : n * (B + w) % 2 ^ 64 = n * (B + w) := Nat.mod_eq_of_lt (by omega)
  have e2 : (n * (B + w) + (B - 1)) % 2 ^ 64 = n * (B + w) + (B - 1) := Nat.mod_eq_of_lt (by omega)
  rw [e1, e2]

end HCV

/-- C74: the same for the hash tables: the hypotheses of C09 (for 32-bit keys they bound the size far below 2^64), and with 64-bit keys room for rounding up to whole words. -/
theorem C74_hash_compact_vector {B n w : Nat}
    (hB : B = 64 ∧ w ≤ 64 ∧ n * (64 + w) + 64 ≤ 2 ^ 64 ∨ B = 32 ∧ (w ≤ 32 ∨ w = 64) ∧ n * (32 + w) ≤ 2 ^ 32) (h1 : 1 ≤ w)
    (ops : List (Nat × BitVec B × W)) (hops : ∀ o ∈ ops, o.1 < n ∧ o.2.2.toNat < 2 ^ w) :
    ∃ c c', HCV.new64 B n w = some c ∧ c.setAll ops = some c' ∧ c'.size = n ∧
      ∀ i, i < n → c'.get i = some ((ops.foldl (fun es o => es.set o.1 o.2) (List.replicate n (0, 0))).getD i (0, 0)) := by
  have hnew : HCV.new64 B n w = HCV.new B n w := by
    rcases hB with ⟨rfl, h2, h3⟩ | ⟨rfl, h2, h3⟩
    · exact HCV.new64_eq h3 (by omega)
    · exact HCV.new64_eq (by omega) (by omega)
  rw [hnew]
  rcases hB with ⟨rfl, h2, h3⟩ | ⟨rfl, h2, h3⟩
  · exact C09_hash_compact_vector_lossless (.inl ⟨rfl, h2⟩) h1 (by omega) ops hops
  · exact C09_hash_compact_vector_lossless (.inr ⟨rfl, h2⟩) h1 h3 ops hops

/-- C74, defect: a table of 2^57 entries of 64 + 64 bits is built without an error and has no words. -/
theorem C74_hash_compact_vector_too_large_defect : ∃ c, HCV.new64 64 (2 ^ 57) 64 = some c ∧ c.size = 2 ^ 57 ∧ c.bits = [] ∧
    c.set 0 1#64 1#64 = none :=
  ⟨_, rfl, rfl, rfl, rfl⟩

/-! ## bit_vector_builder -/

namespace BVBuilder

/-- `bit_vector_builder(size, init)`, bit_vector.hpp:67-76, as `new`; the number of words is computed in 64 bits, and `m_bits.back()` of an empty vector is undefined. -/
def new64 (size : Nat) (init : Bool) : Option BVBuilder :=
  let bits := List.replicate (wordsFor64 size) (if init then BitVec.allOnes 64 else 0#64)
  if size ≠ 0 then
    if bits = [] then none
    else
      let last := bits.length - 1
      let bits := if init ∧ size % 64 ≠ 0 then
          bits.set last (bits.getD last 0 >>> (64 - size % 64)) else bits
      some { bits := bits, size := size, curWord := some last }
  else some { bits := bits, size := size, curWord := none }

/-- `zero_extend(n)`, bit_vector.hpp:87-94, as `zeroExtend`, in 64 bits; if the number of words needed is below the number of words there, the difference wraps and `insert`
throws (`Except.error`). -/
def zeroExtend64 (b : BVBuilder) (n : Nat) : Option (Except Unit BVBuilder) :=
  let size := (b.size + n) % 2 ^ 64
  let needed := (wordsFor64 size + (2 ^ 64 - b.bits.length % 2 ^ 64)) % 2 ^ 64
  if needed ≠ 0 then
    if needed ≥ 2 ^ 60 then some (.error ())
    else
      let bits := b.bits ++ List.replicate needed 0
      some (.ok { bits := bits, size := size, curWord := some (bits.length - 1) })
  else some (.ok { b with size := size })

/-- `append_bits(bits, len)`, bit_vector.hpp:122-137, as `appendBits`, in 64 bits. -/
def appendBits64 (b : BVBuilder) (v : W) (len : Nat) : Option BVBuilder :=
  if len = 0 then some b
  else
    let posInWord := b.size % 64
    let size := (b.size + len) % 2 ^ 64
    if posInWord = 0 then
      let bits := b.bits ++ [v]
      some { bits := bits, size := size, curWord := some (bits.length - 1) }
    else do
      let cur ← b.curWord
      let bits ← wr b.bits cur (fun x => x ||| (v <<< posInWord))
      let bits := if len > 64 - posInWord then bits ++ [v >>> (64 - posInWord)] else bits
      return { bits := bits, size := size, curWord := some (bits.length - 1) }

/-- `append(rhs)`, bit_vector.hpp:150-174, as `append`, in 64 bits. -/
def append64 (b rhs : BVBuilder) : Option BVBuilder :=
  if rhs.size = 0 then some b
  else do
    let pos := b.bits.length
    let shift := b.size % 64
    let size := (b.size + rhs.size) % 2 ^ 64
    let bits := resizeWords b.bits (wordsFor64 size)
    let bits ← if shift = 0 then copyAt bits pos rhs.bits
      else if pos = 0 then none else appendLoop shift rhs.bits bits (pos - 1)
    return { bits := bits, size := size, curWord := some (bits.length - 1) }

theorem new64_eq {size : Nat} (init : Bool) (h : size + 63 < 2 ^ 64) : new64 size init = some (new size init) := by
  unfold new64 new
  rw [wordsFor64_eq h]
  by_cases h0 : size = 0
  · subst h0; rfl
  · have hw : wordsFor size ≠ 0 := by unfold wordsFor; omega
    simp only
    rw [if_pos h0, if_pos h0, if_neg (by rw [List.replicate_eq_nil_iff]; exact hw)]

theorem zeroExtend64_eq {b : BVBuilder} (hb : b.WF) {n : Nat} (h : b.size + n + 63 < 2 ^ 64) (hn : n < 2 ^ 60) :
    b.zeroExtend64 n = some (.ok (b.zeroExtend n)) := by
  have hlen := hb.len
  unfold zeroExtend64 zeroExtend
  simp only
  rw [Nat.mod_eq_of_lt (show b.size + n < 2 ^ 64 by omega), wordsFor64_eq h]
  have hm : wordsFor b.size ≤ wordsFor (b.size + n) := by unfold wordsFor; omega
  have hd : wordsFor (b.size + n) - wordsFor b.size ≤ n := by unfold wordsFor; omega
  have hs : wordsFor (b.size + n) < 2 ^ 64 := by unfold wordsFor; omega
  rw [hlen]
  have e : (wordsFor (b.size + n) + (2 ^ 64 - wordsFor b.size % 2 ^ 64)) % 2 ^ 64 = wordsFor (b.size + n) - wordsFor b.size := by
    generalize wordsFor b.size = x at *
    generalize wordsFor (b.size + n) = y at *
    rw [Nat.mod_eq_of_lt (show x < 2 ^ 64 by omega), show y + (2 ^ 64 - x) = (y - x) + 2 ^ 64 by omega, Nat.add_mod_right, Nat.mod_eq_of_lt (by omega)]
  rw [e]
  split
  · rw [if_neg (by omega)]
  · rfl

theorem appendBits64_eq {b : BVBuilder} {v : W} {len : Nat} (h : b.size + len < 2 ^ 64) : b.appendBits64 v len = b.appendBits v len := by
  unfold appendBits64 appendBits
  simp only
  rw [Nat.mod_eq_of_lt h]

theorem append64_eq {b r : BVBuilder} (h : b.size + r.size + 63 < 2 ^ 64) : b.append64 r = b.append r := by
  unfold append64 append
  simp only
  rw [Nat.mod_eq_of_lt (show b.size + r.size < 2 ^ 64 by omega), wordsFor64_eq h]

end BVBuilder

/-- C74: with the arithmetic of the machine the operations of a `bit_vector_builder` do what C05 says as long as the bits are less than 2^64 - 63, in every state
that a history of operations can reach.  (`set`, `set_bits` and `get_bits` compute no sum or product of sizes.  A single `zero_extend` by 2^60 bits or more is left out: it
asks for more memory than an address space has.) -/
theorem C74_bit_vector_builder :
    (∀ size init, size + 63 < 2 ^ 64 → BVBuilder.new64 size init = some (BVBuilder.new size init)) ∧
    ∀ b l, BVHistory b l →
      (∀ n, l.length + n + 63 < 2 ^ 64 → n < 2 ^ 60 → ∃ b', b.zeroExtend64 n = some (.ok b') ∧ BVHistory b' (l ++ List.replicate n false)) ∧
      (∀ v len, l.length + len < 2 ^ 64 → len ≤ 64 → v.toNat < 2 ^ len →
        ∃ b', b.appendBits64 v len = some b' ∧ BVHistory b' (l ++ (List.range len).map v.getLsbD)) ∧
      ∀ r m, BVHistory r m → l.length + m.length + 63 < 2 ^ 64 → ∃ b', b.append64 r = some b' ∧ BVHistory b' (l ++ m) := by
  refine ⟨fun size init h => BVBuilder.new64_eq init h, fun b l h => ⟨fun n hn h60 => ?_, fun v len hn hl hv => ?_, fun r m hr hn => ?_⟩⟩
  · refine ⟨_, BVBuilder.zeroExtend64_eq h.wf.1 (by rw [h.size]; exact hn) h60, .zeroExtend n h⟩
  · obtain ⟨b', e, -, -⟩ := BVBuilder.appendBits_wf h.wf.1 hl hv
    exact ⟨b', by rw [BVBuilder.appendBits64_eq (by rw [h.size]; exact hn), e], .appendBits v len h hl hv e⟩
  · obtain ⟨b', e, -, -⟩ := BVBuilder.append_wf h.wf.1 hr.wf.1
    exact ⟨b', by rw [BVBuilder.append64_eq (by rw [h.size, hr.size]; exact hn), e], .append h hr e⟩

/-- C74, defect: a builder of 2^64 - 1 bits has no words. -/
theorem C74_bit_vector_builder_too_large_defect : BVBuilder.new64 (2 ^ 64 - 1) false = none := by
  unfold BVBuilder.new64
  rw [show wordsFor64 (2 ^ 64 - 1) = 0 by decide]
  rfl

/-! ## ef_sequence -/

namespace BVBuilder

theorem appendBits_size {b b' : BVBuilder} {v : W} {len : Nat} (h : b.appendBits v len = some b') : b'.size = b.size + len := by
  unfold appendBits at h
  by_cases h0 : len = 0
  · rw [if_pos h0] at h; cases h; omega
  · rw [if_neg h0] at h
    simp only at h
    by_cases hp : b.size % 64 = 0
    · rw [if_pos hp] at h; cases h; rfl
    · rw [if_neg hp] at h
      obtain ⟨cur, -, h⟩ := Option.bind_eq_some_iff.1 h
      obtain ⟨bits, -, h⟩ := Option.bind_eq_some_iff.1 h
      cases h; rfl

end BVBuilder

namespace EF

/-- One iteration of the encoding loop, ef_sequence.hpp:29-42, as `encodeStep`, in 64 bits. -/
def encodeStep64 (l i : Nat) (last v : Nat) (hi lo : BVBuilder) : Option (Except Unit (BVBuilder × BVBuilder)) :=
  if i ≠ 0 ∧ v < last then some (.error ())
  else do
    let lo ← if l ≠ 0 then lo.appendBits64 (BitVec.ofNat 64 v &&& ((1#64 <<< l) - 1#64)) l else some lo
    let hi ← hi.set ((v / 2 ^ l + i) % 2 ^ 64) true
    return .ok (hi, lo)

/-- The encoding loop, ef_sequence.hpp:29-42, as `encodeLoop`, in 64 bits. -/
def encodeLoop64 (l : Nat) : List Nat → Nat → Nat → BVBuilder → BVBuilder →
    Option (Except Unit (BVBuilder × BVBuilder))
  | [], _, _, hi, lo => some (.ok (hi, lo))
  | v :: vs, i, last, hi, lo =>
    (encodeStep64 l i last v hi lo).bind fun
      | .error e => some (.error e)
      | .ok (hi, lo) => encodeLoop64 l vs (i + 1) v hi lo

/-- `ef_sequence::build(begin, n, u)`, ef_sequence.hpp:19-52, as `build`; the number of high bits, the positions and the sizes are computed in 64 bits. -/
def build64 (vs : List Nat) (u : Nat) : Option (Except Unit EF) :=
  let n := vs.length
  let l := lowWidth n u
  (BVBuilder.new64 ((n + u / 2 ^ l + 1) % 2 ^ 64) false).bind fun hi0 =>
  (encodeLoop64 l vs 0 0 hi0 (BVBuilder.new 0 false)).bind fun
    | .error e => some (.error e)
    | .ok (hi, lo) =>
      (DArray.build id (BitVector.ofBuilder hi)).map fun d1 =>
        .ok { size := n, l := l, high := BitVector.ofBuilder hi, d1 := d1, low := BitVector.ofBuilder lo }

/-- `operator[](i)`, ef_sequence.hpp:54-58, as `get`; the position of the low bits is computed in 64 bits. -/
def get64 (e : EF) (i : Nat) : Option Nat :=
  (e.d1.select id e.high i).bind fun s =>
    (e.low.getBits (i * e.l % 2 ^ 64) e.l).map fun lo => ((s - i) <<< e.l) % 2 ^ 64 ||| lo.toNat

theorem encodeLoop64_eq {l m : Nat} : ∀ (vs : List Nat) (i last : Nat) (hi lo : BVBuilder), (∀ v ∈ vs, v / 2 ^ l ≤ m) →
    m + i + vs.length < 2 ^ 64 → lo.size + vs.length * l < 2 ^ 64 → encodeLoop64 l vs i last hi lo = encodeLoop l vs i last hi lo := by
  intro vs
  induction vs with
  | nil => intro i last hi lo _ _ _; rw [encodeLoop64, encodeLoop]
  | cons v vs ih =>
    intro i last hi lo h1 h2 h3
    have hv := h1 v List.mem_cons_self
    rw [List.length_cons] at h2 h3
    rw [Nat.add_mul, Nat.one_mul] at h3
    have e : encodeStep64 l i last v hi lo = encodeStep l i last v hi lo := by
      have p1 := Nat.mod_eq_of_lt (show v / 2 ^ l + i < 2 ^ 64 by omega)
      have p2 := BVBuilder.appendBits64_eq (b := lo) (v := BitVec.ofNat 64 v &&& ((1#64 <<< l) - 1#64)) (len := l) (by omega)
      unfold encodeStep64 encodeStep
      rw [p1, p2]
    rw [encodeLoop64, encodeLoop, e]
    refine Option.bind_congr fun r hr => ?_
    match r, hr with
    | .error _, _ => rfl
    | .ok (hi', lo'), hr =>
      refine ih _ _ _ _ (fun v hm => h1 v (List.mem_cons_of_mem _ hm)) (by omega) ?_
      unfold encodeStep at hr
      split at hr
      · cases hr
      · simp only at hr
        by_cases hl : l ≠ 0
        · rw [if_pos hl] at hr
          obtain ⟨lo1, q1, hr⟩ := Option.bind_eq_some_iff.1 hr
          obtain ⟨hi1, -, hr⟩ := Option.bind_eq_some_iff.1 hr
          cases hr
          rw [BVBuilder.appendBits_size q1]; omega
        · rw [if_neg hl] at hr
          obtain ⟨lo1, q1, hr⟩ := Option.bind_eq_some_iff.1 hr
          obtain ⟨hi1, -, hr⟩ := Option.bind_eq_some_iff.1 hr
          cases hr; cases q1
          omega

theorem high_words_le {n u : Nat} (hn : n ≠ 0) (hu : u < 2 ^ 64) : u / 2 ^ lowWidth n u ≤ 2 * n := by
  unfold lowWidth
  by_cases h : u / n = 0
  · rw [if_neg (by rintro ⟨-, h2⟩; exact h2 h), Nat.pow_zero, Nat.div_one]
    rcases Nat.div_eq_zero_iff.1 h with h | h <;> omega
  · rw [if_pos ⟨hn, h⟩]
    have hle : u / n ≤ u := Nat.div_le_self _ _
    have hx : (BitVec.ofNat 64 (u / n)).toNat = u / n := by rw [BitVec.toNat_ofNat, Nat.mod_eq_of_lt (by omega)]
    have hne : BitVec.ofNat 64 (u / n) ≠ 0#64 := by
      intro h0; rw [h0] at hx; exact h hx.symm
    have h2 := (msb_spec hne).2
    rw [hx] at h2
    generalize msb (BitVec.ofNat 64 (u / n)) = k at *
    have h3 : u < 2 ^ (k + 1) * n := (Nat.div_lt_iff_lt_mul (by omega)).1 h2
    have h4 : u / 2 ^ k < 2 * n := by
      rw [Nat.div_lt_iff_lt_mul (Nat.two_pow_pos k)]
      rw [Nat.pow_succ] at h3
      calc u < 2 ^ k * 2 * n := h3
        _ = 2 * n * 2 ^ k := by rw [Nat.mul_assoc, Nat.mul_comm]
    omega

theorem build64_eq {vs : List Nat} {u : Nat} (hne : vs ≠ []) (hlen : vs.length < 2 ^ 57) (hu : ∀ v ∈ vs, v ≤ u) (hu64 : u < 2 ^ 64) :
    build64 vs u = build vs u := by
  have hn : vs.length ≠ 0 := fun h => hne (List.length_eq_zero_iff.1 h)
  have hl := lowWidth_lt vs.length hu64
  have hh := high_words_le hn hu64
  unfold build64 build
  simp only
  generalize lowWidth vs.length u = l at *
  rw [Nat.mod_eq_of_lt (show vs.length + u / 2 ^ l + 1 < 2 ^ 64 by omega), BVBuilder.new64_eq false (by omega), Option.bind_some]
  have hm : vs.length * l ≤ vs.length * 63 := Nat.mul_le_mul_left _ (by omega)
  have h0 : (BVBuilder.new 0 false).size = 0 := rfl
  rw [encodeLoop64_eq (m := u / 2 ^ l) vs 0 0 _ _ (fun v hv => Nat.div_le_div_right (hu v hv)) (by omega) (by rw [h0]; omega)]
  refine Option.bind_congr fun r _ => ?_
  match r with
  | .error _ => rfl
  | .ok (_, _) => rfl

end EF

/-- C74: with the arithmetic of the machine an `ef_sequence` of fewer than 2^57 values is lossless, whatever its universe, and an unsorted input throws, as C12 says. -/
theorem C74_ef_sequence {vs : List Nat} {u : Nat} (hne : vs ≠ []) (hlen : vs.length < 2 ^ 57) (hu : ∀ v ∈ vs, v ≤ u) (hu64 : u < 2 ^ 64) :
    (Spec.Sorted vs → ∃ e, EF.build64 vs u = some (.ok e) ∧ ∀ i (h : i < vs.length), e.get64 i = some vs[i]) ∧
    (¬ Spec.Sorted vs → EF.build64 vs u = some (.error ())) := by
  rw [EF.build64_eq hne hlen hu hu64]
  refine ⟨fun hs => ?_, fun hs => C12_unsorted_throws hs hu hu64⟩
  obtain ⟨e, e1, h, -⟩ := EF.build_ok hs hu hu64
  obtain ⟨e', e1', -, hg, -⟩ := C12_ef_sequence_is_input hs hu hu64
  rw [e1] at e1'
  cases e1'
  refine ⟨e, e1, fun i hi => ?_⟩
  have hl : e.l < 64 := h.l
  have hm : i * e.l ≤ i * 63 := Nat.mul_le_mul_left _ (by omega)
  have hp := Nat.mod_eq_of_lt (show i * e.l < 2 ^ 64 by omega)
  have := hg i hi
  unfold EF.get at this
  unfold EF.get64
  rw [hp]
  exact this

/-! ## Concrete cases -/

example : ∃ b b', CVBuilder.new64 3 33 = some b ∧ b.sets64 [(1, 5#64), (2, 0x1ffffffff#64), (1, 6#64)] = some b' ∧
    b'.get64 1 = some 6#64 ∧ b'.get64 2 = some 0x1ffffffff#64 ∧ b'.get64 0 = some 0#64 := by
  obtain ⟨b, b', e1, e2, h, -⟩ := C74_compact_vector 3 33 (by decide) (by decide) (by decide) [(1, 5#64), (2, 0x1ffffffff#64), (1, 6#64)]
    (by intro p hp; simp only [List.mem_cons, List.not_mem_nil, or_false] at hp; rcases hp with rfl | rfl | rfl <;> decide)
  exact ⟨b, b', e1, e2, (h 1 (by decide)).1, (h 2 (by decide)).1, (h 0 (by decide)).1⟩

example : ∃ c c', HCV.new64 64 2 5 = some c ∧ c.setAll [(1, 9#64, 7#64)] = some c' ∧ c'.get 1 = some (9#64, 7#64) := by
  obtain ⟨c, c', e1, e2, -, h⟩ := C74_hash_compact_vector (B := 64) (n := 2) (w := 5) (.inl ⟨rfl, by decide, by decide⟩) (by decide) [(1, 9#64, 7#64)]
    (by intro o ho; simp only [List.mem_singleton] at ho; subst ho; decide)
  exact ⟨c, c', e1, e2, h 1 (by decide)⟩

example : ∃ b', (BVBuilder.new 70 true).zeroExtend64 100 = some (.ok b') ∧ BVHistory b' (List.replicate 70 true ++ List.replicate 100 false) :=
  (C74_bit_vector_builder.2 _ _ (.new 70 true)).1 100 (by decide) (by decide)

example : ∃ e, EF.build64 [3, 3, 2 ^ 64 - 1] (2 ^ 64 - 1) = some (.ok e) ∧ e.get64 2 = some (2 ^ 64 - 1) := by
  obtain ⟨e, e1, h⟩ := (C74_ef_sequence (vs := [3, 3, 2 ^ 64 - 1]) (u := 2 ^ 64 - 1) (by simp) (by decide) (by decide) (by decide)).1 (by unfold Spec.Sorted; decide)
  exact ⟨e, e1, h 2 (by decide)⟩

end Tongrams
