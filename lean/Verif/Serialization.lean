import Verif.TrieImpl
import Verif.MphCount
import Verif.MphProb
import Verif.UniformPEF

/-!
# Saving and loading (the `save` and `load` members)

The `essentials` functions are external: `save_pod` is modelled as the little-endian bytes of the member, `save_vec` as
the number of elements in 8 bytes followed by the elements.  Reading past the end of the stream is `none` (the code does not
check the stream).  `save` and `load` are modelled separately, member by member.

`Fits` says that each number of a structure is in the range of the C++ type of the member: in the C++ program this always
holds, in the model the sizes are natural numbers.
-/

namespace Tongrams

/-! ## Streams -/

/-- Reading a value from a stream: the value and the rest of the stream; `none`: the stream ends before. -/
abbrev Rd (α : Type) := List Byte → Option (α × List Byte)

/-- Reading one value after another. -/
def Rd.bind {α β : Type} (g : Rd α) (f : α → Rd β) : Rd β := fun s => (g s).bind fun p => f p.1 p.2

/-- A value without reading. -/
def Rd.ret {α : Type} (a : α) : Rd α := fun s => some (a, s)

/-- Failure (undefined behaviour) while reading. -/
def Rd.fail {α : Type} : Rd α := fun _ => none

/-- Specification: reading a stream that starts with the bytes `bs` gives `x` and consumes exactly these bytes. -/
def Spec.Reads {α : Type} (g : Rd α) (bs : List Byte) (x : α) : Prop := ∀ rest, g (bs ++ rest) = some (x, rest)

/-- `essentials::save_pod` of an unsigned number of `k` bytes, little-endian (external). -/
def putU : Nat → Nat → List Byte
  | 0, _ => []
  | k + 1, v => BitVec.ofNat 8 v :: putU k (v / 256)

/-- `essentials::load_pod` of an unsigned number of `k` bytes (external). -/
def getU : Nat → Rd Nat
  | 0 => Rd.ret 0
  | k + 1 => fun
    | [] => none
    | b :: s => (getU k s).map fun p => (b.toNat + 256 * p.1, p.2)

/-- The same for a bit pattern of `8 * k` bits: a word, a hash, a float. -/
def putWord {w : Nat} (k : Nat) (v : BitVec w) : List Byte := putU k v.toNat

/-- The same for a bit pattern. -/
def getWord (w k : Nat) : Rd (BitVec w) := Rd.bind (getU k) fun n => Rd.ret (BitVec.ofNat w n)

/-- `essentials::save_pod` of an `int64_t` (two's complement; external). -/
def putI (v : Int) : List Byte := putWord 8 (BitVec.ofInt 64 v)

/-- `essentials::load_pod` of an `int64_t` (external). -/
def getI : Rd Int := Rd.bind (getWord 64 8) fun v => Rd.ret v.toInt

/-- `n` values read one after the other. -/
def getN {α : Type} (g : Rd α) : Nat → Rd (List α)
  | 0 => Rd.ret []
  | n + 1 => Rd.bind g fun a => Rd.bind (getN g n) fun l => Rd.ret (a :: l)

/-- Values written one after the other. -/
def putAll {α : Type} (p : α → List Byte) (l : List α) : List Byte := l.flatMap p

/-- `essentials::save_vec` (external). -/
def putVec {α : Type} (p : α → List Byte) (l : List α) : List Byte := putU 8 l.length ++ putAll p l

/-- `essentials::load_vec` (external). -/
def getVec {α : Type} (g : Rd α) : Rd (List α) := Rd.bind (getU 8) fun n => getN g n

namespace Spec.Reads

theorem ret {α : Type} (a : α) : Spec.Reads (Rd.ret a) [] a := fun _ => rfl

theorem bind {α β : Type} {g : Rd α} {f : α → Rd β} {bs bs' : List Byte} {a : α} {b : β} (h : Spec.Reads g bs a)
    (h' : Spec.Reads (f a) bs' b) : Spec.Reads (Rd.bind g f) (bs ++ bs') b := by
  intro rest
  rw [Rd.bind, List.append_assoc, h]
  exact h' rest

/-- The last value of a structure. -/
theorem last {α β : Type} {g : Rd α} {f : α → Rd β} {bs : List Byte} {a : α} {b : β} (h : Spec.Reads g bs a)
    (h' : f a = Rd.ret b) : Spec.Reads (Rd.bind g f) bs b := by
  have := bind h (bs' := []) (b := b) (f := f) (by rw [h']; exact ret b)
  rwa [List.append_nil] at this

end Spec.Reads

theorem getU_putU : ∀ (k v : Nat), v < 256 ^ k → Spec.Reads (getU k) (putU k v) v
  | 0, v, h => by
    have : v = 0 := by simpa using h
    subst this
    exact fun _ => rfl
  | k + 1, v, h => by
    intro rest
    have ih := getU_putU k (v / 256) (by
      rw [Nat.pow_succ] at h
      exact Nat.div_lt_of_lt_mul (by omega)) rest
    show (getU k (putU k (v / 256) ++ rest)).map _ = _
    rw [ih]
    simp only [Option.map_some, BitVec.toNat_ofNat, Option.some.injEq, Prod.mk.injEq, and_true]
    have : (2 : Nat) ^ 8 = 256 := rfl
    omega

theorem getU8 {v : Nat} (h : v < 2 ^ 64) : Spec.Reads (getU 8) (putU 8 v) v :=
  getU_putU 8 v (by have : (256 : Nat) ^ 8 = 2 ^ 64 := rfl; omega)

theorem getU1 {v : Nat} (h : v < 256) : Spec.Reads (getU 1) (putU 1 v) v :=
  getU_putU 1 v (by omega)

theorem getWord_putWord {w k : Nat} (h : w ≤ 8 * k) (v : BitVec w) : Spec.Reads (getWord w k) (putWord k v) v := by
  refine Spec.Reads.last (getU_putU k v.toNat ?_) (by rw [BitVec.ofNat_toNat, BitVec.setWidth_eq])
  have : (256 : Nat) ^ k = 2 ^ (8 * k) := by rw [Nat.pow_mul]
  rw [this]
  exact Nat.lt_of_lt_of_le v.isLt (Nat.pow_le_pow_right (by omega) h)

theorem getI_putI {v : Int} (h : -(2 ^ 63) ≤ v ∧ v < 2 ^ 63) : Spec.Reads getI (putI v) v := by
  refine Spec.Reads.last (getWord_putWord (by omega) (BitVec.ofInt 64 v)) ?_
  rw [BitVec.toInt_ofInt, Int.bmod_eq_of_le] <;> omega

theorem getN_putAll {α : Type} {g : Rd α} {p : α → List Byte} : ∀ {l : List α}, (∀ a ∈ l, Spec.Reads g (p a) a) →
    Spec.Reads (getN g l.length) (putAll p l) l
  | [], _ => fun _ => rfl
  | a :: l, h => by
    refine Spec.Reads.bind (h a List.mem_cons_self) ?_
    exact Spec.Reads.last (getN_putAll fun b hb => h b (List.mem_cons_of_mem _ hb)) rfl

theorem getVec_putVec {α : Type} {g : Rd α} {p : α → List Byte} {l : List α} (hn : l.length < 2 ^ 64)
    (h : ∀ a ∈ l, Spec.Reads g (p a) a) : Spec.Reads (getVec g) (putVec p l) l :=
  Spec.Reads.bind (getU8 hn) (getN_putAll h)

/-! ## Vectors and sequences -/

/-- The lengths and numbers of a `bit_vector` fit their members. -/
def BitVector.Fits (b : BitVector) : Prop := b.size < 2 ^ 64 ∧ b.bits.length < 2 ^ 64

/-- `bit_vector::save`, bit_vector.hpp:299-302. -/
def BitVector.save (b : BitVector) : List Byte := putU 8 b.size ++ putVec (putWord 8) b.bits

/-- `bit_vector::load`, bit_vector.hpp:304-307. -/
def BitVector.load : Rd BitVector :=
  Rd.bind (getU 8) fun size => Rd.bind (getVec (getWord 64 8)) fun bits => Rd.ret ⟨size, bits⟩

/-- The numbers fit their members. -/
def CompactVector.Fits (c : CompactVector) : Prop := c.size < 2 ^ 64 ∧ c.width < 2 ^ 64 ∧ c.bits.length < 2 ^ 64

/-- `compact_vector::save`, compact_vector.hpp:306-311. -/
def CompactVector.save (c : CompactVector) : List Byte :=
  putU 8 c.size ++ (putU 8 c.width ++ (putWord 8 c.mask ++ putVec (putWord 8) c.bits))

/-- `compact_vector::load`, compact_vector.hpp:313-318. -/
def CompactVector.load : Rd CompactVector :=
  Rd.bind (getU 8) fun size => Rd.bind (getU 8) fun width => Rd.bind (getWord 64 8) fun mask =>
  Rd.bind (getVec (getWord 64 8)) fun bits => Rd.ret ⟨size, width, mask, bits⟩

/-- The numbers fit their members. -/
def HCV.Fits {B : Nat} (c : HCV B) : Prop := c.size < 2 ^ 64 ∧ c.width < 2 ^ 64 ∧ c.bits.length < 2 ^ 64

/-- `hash_compact_vector::save`, hash_compact_vector.hpp:172-177; the hashes have `B` bits, in `B / 8` bytes. -/
def HCV.save {B : Nat} (c : HCV B) : List Byte :=
  putU 8 c.size ++ (putU 8 c.width ++ (putWord 8 c.mask ++ putVec (putWord (B / 8)) c.bits))

/-- `hash_compact_vector::load`, hash_compact_vector.hpp:179-184. -/
def HCV.load (B : Nat) : Rd (HCV B) :=
  Rd.bind (getU 8) fun size => Rd.bind (getU 8) fun width => Rd.bind (getWord 64 8) fun mask =>
  Rd.bind (getVec (getWord B (B / 8))) fun bits => Rd.ret ⟨size, width, mask, bits⟩

/-- The numbers fit their members. -/
def CTVec.Fits (c : CTVec) : Prop := c.size < 2 ^ 64 ∧ c.w1 < 2 ^ 64 ∧ c.w2 < 2 ^ 64 ∧ c.w3 < 2 ^ 64 ∧ c.bits.Fits

/-- `compact_triplets_vector::save`, compact_triplets_vector.hpp:106-112. -/
def CTVec.save (c : CTVec) : List Byte := putU 8 c.size ++ (putU 8 c.w1 ++ (putU 8 c.w2 ++ (putU 8 c.w3 ++ c.bits.save)))

/-- `compact_triplets_vector::load`, compact_triplets_vector.hpp:114-120. -/
def CTVec.load : Rd CTVec :=
  Rd.bind (getU 8) fun size => Rd.bind (getU 8) fun w1 => Rd.bind (getU 8) fun w2 => Rd.bind (getU 8) fun w3 =>
  Rd.bind BitVector.load fun bits => Rd.ret ⟨size, w1, w2, w3, bits⟩

/-- The numbers fit their members. -/
def DArray.Fits (d : DArray) : Prop :=
  d.positions < 2 ^ 64 ∧ d.blockInv.length < 2 ^ 64 ∧ d.subInv.length < 2 ^ 64 ∧ d.overflow.length < 2 ^ 64 ∧
    (∀ v ∈ d.blockInv, -(2 ^ 63) ≤ v ∧ v < 2 ^ 63) ∧ ∀ v ∈ d.overflow, v < 2 ^ 64

/-- `darray::save`, darray.hpp:100-105. -/
def DArray.save (d : DArray) : List Byte :=
  putU 8 d.positions ++ (putVec putI d.blockInv ++ (putVec (putWord 2) d.subInv ++ putVec (putU 8) d.overflow))

/-- `darray::load`, darray.hpp:107-112. -/
def DArray.load : Rd DArray :=
  Rd.bind (getU 8) fun positions => Rd.bind (getVec getI) fun blockInv => Rd.bind (getVec (getWord 16 2)) fun subInv =>
  Rd.bind (getVec (getU 8)) fun overflow => Rd.ret ⟨positions, blockInv, subInv, overflow⟩

/-- A `darray` that was never built: darray.hpp:12. -/
def DArray.empty : DArray := ⟨0, [], [], []⟩

/-- The numbers fit their members. -/
def EF.Fits (e : EF) : Prop := e.size < 2 ^ 64 ∧ e.l < 256 ∧ e.high.Fits ∧ e.d1.Fits ∧ e.low.Fits

/-- `ef_sequence::save`, ef_sequence.hpp:134-141; `m_high_bits_d0` is never built. -/
def EF.save (e : EF) : List Byte :=
  putU 1 e.l ++ (e.high.save ++ (e.d1.save ++ (DArray.empty.save ++ (e.low.save ++ putU 8 e.size))))

/-- `ef_sequence::load`, ef_sequence.hpp:143-150; `m_high_bits_d0` is not a member of the model. -/
def EF.load : Rd EF :=
  Rd.bind (getU 1) fun l => Rd.bind BitVector.load fun high => Rd.bind DArray.load fun d1 => Rd.bind DArray.load fun _ =>
  Rd.bind BitVector.load fun low => Rd.bind (getU 8) fun size => Rd.ret ⟨size, l, high, d1, low⟩

/-- The numbers fit their members. -/
def ICSeq.Fits (s : ICSeq) : Prop := s.size < 2 ^ 64 ∧ s.codewords.Fits ∧ s.index.Fits ∧ s.d1.Fits

/-- `indexed_codewords_sequence::save`, indexed_codewords_sequence.hpp:100-105. -/
def ICSeq.save (s : ICSeq) : List Byte := putU 8 s.size ++ (s.codewords.save ++ (s.index.save ++ s.d1.save))

/-- `indexed_codewords_sequence::load`, indexed_codewords_sequence.hpp:107-112. -/
def ICSeq.load : Rd ICSeq :=
  Rd.bind (getU 8) fun size => Rd.bind BitVector.load fun codewords => Rd.bind BitVector.load fun index =>
  Rd.bind DArray.load fun d1 => Rd.ret ⟨size, codewords, index, d1⟩

/-- `prefix_summed_sequence<ef_sequence>::save`, prefix_summed_sequence.hpp:42-45; in the model `m_size` is the size of the
sequence. -/
def PSEF.save (e : EF) : List Byte := putU 8 e.size ++ e.save

/-- `prefix_summed_sequence<ef_sequence>::load`, prefix_summed_sequence.hpp:47-50. -/
def PSEF.load : Rd EF := Rd.bind (getU 8) fun _ => EF.load

/-- The numbers fit their members. -/
def PEF.Fits (f : PEF) : Prop :=
  f.size < 2 ^ 64 ∧ f.univ < 2 ^ 64 ∧ f.partitions < 2 ^ 64 ∧ f.upper.Fits ∧ f.data.Fits ∧ f.logPart < 256

/-- `uniform_pef_sequence::save`, uniform_pef_sequence.hpp:492-499. -/
def PEF.save (f : PEF) : List Byte :=
  putU 8 f.size ++ (putU 8 f.univ ++ (putU 8 f.partitions ++ (f.upper.save ++ (f.data.save ++ putU 1 f.logPart))))

/-- `uniform_pef_sequence::load`, uniform_pef_sequence.hpp:501-513, without the initialisation of the enumerator (see
`GramsFile.pef`). -/
def PEF.load : Rd PEF :=
  Rd.bind (getU 8) fun size => Rd.bind (getU 8) fun univ => Rd.bind (getU 8) fun partitions =>
  Rd.bind CompactVector.load fun upper => Rd.bind BitVector.load fun data => Rd.bind (getU 1) fun logPart =>
  Rd.ret ⟨size, univ, partitions, upper, data, logPart⟩

/-! ## Hash functions and tables -/

/-- The external parts of a hash function (`emphf`): how the base hasher and the pairs of bits are written and read. -/
structure Emphf (K : Type) (B : Nat) where
  saveHasher : (K → BitVec B × BitVec B × BitVec B) → List Byte
  loadHasher : Rd (K → BitVec B × BitVec B × BitVec B)
  savePairs : List Nat → List Byte
  loadPairs : Rd (List Nat)

/-- `mphf::save`, mphf.hpp:118-123. -/
def Mphf.save {K : Type} {B : Nat} (c : Emphf K B) (h : Mphf K B) : List Byte :=
  putU 8 h.n ++ (putU 8 h.domain ++ (c.saveHasher h.hasher ++ c.savePairs h.bv))

/-- `mphf::load`, mphf.hpp:125-130. -/
def Mphf.load {K : Type} {B : Nat} (c : Emphf K B) : Rd (Mphf K B) :=
  Rd.bind (getU 8) fun n => Rd.bind (getU 8) fun domain => Rd.bind c.loadHasher fun hasher => Rd.bind c.loadPairs fun bv =>
  Rd.ret ⟨n, domain, hasher, bv⟩

/-- The numbers fit their members, and `emphf` reads back the hasher and the pairs of bits it wrote. -/
def Mphf.Fits {K : Type} {B : Nat} (c : Emphf K B) (h : Mphf K B) : Prop :=
  h.n < 2 ^ 64 ∧ h.domain < 2 ^ 64 ∧ Spec.Reads c.loadHasher (c.saveHasher h.hasher) h.hasher ∧
    Spec.Reads c.loadPairs (c.savePairs h.bv) h.bv

/-- The numbers fit their members. -/
def SVTable.Fits {K : Type} {B : Nat} (c : Emphf K B) (t : SVTable K B) : Prop := t.h.Fits c ∧ t.data.Fits

/-- `single_valued_mpht::save`, mph_tables.hpp:106-109. -/
def SVTable.save {K : Type} {B : Nat} (c : Emphf K B) (t : SVTable K B) : List Byte := t.h.save c ++ t.data.save

/-- `single_valued_mpht::load`, mph_tables.hpp:111-114. -/
def SVTable.load {K : Type} {B : Nat} (c : Emphf K B) : Rd (SVTable K B) :=
  Rd.bind (Mphf.load c) fun h => Rd.bind (HCV.load B) fun data => Rd.ret ⟨h, data⟩

/-- The numbers fit their members. -/
def DVTable.Fits {K : Type} {B : Nat} (c : Emphf K B) (t : DVTable K B) : Prop := t.h.Fits c ∧ t.data.Fits

/-- `double_valued_mpht::save`, mph_tables.hpp:251-254. -/
def DVTable.save {K : Type} {B : Nat} (c : Emphf K B) (t : DVTable K B) : List Byte := t.h.save c ++ t.data.save

/-- `double_valued_mpht::load`, mph_tables.hpp:256-259. -/
def DVTable.load {K : Type} {B : Nat} (c : Emphf K B) : Rd (DVTable K B) :=
  Rd.bind (Mphf.load c) fun h => Rd.bind CTVec.load fun data => Rd.ret ⟨h, data⟩

/-- The numbers fit their members. -/
def UTable.Fits {K : Type} {B : Nat} (c : Emphf K B) (t : UTable K B) : Prop := t.h.Fits c ∧ t.values.Fits

/-- `uint_mpht::save`, mph_tables.hpp:337-340. -/
def UTable.save {K : Type} {B : Nat} (c : Emphf K B) (t : UTable K B) : List Byte := t.h.save c ++ t.values.save

/-- `uint_mpht::load`, mph_tables.hpp:342-345. -/
def UTable.load {K : Type} {B : Nat} (c : Emphf K B) : Rd (UTable K B) :=
  Rd.bind (Mphf.load c) fun h => Rd.bind CompactVector.load fun values => Rd.ret ⟨h, values⟩

/-- The numbers fit their members. -/
def FastEF.Fits (c : Emphf Nat 64) (f : FastEF) : Prop :=
  f.ef.Fits ∧ (∀ t ∈ f.offsets, t.Fits c) ∧ f.samplings.length < 2 ^ 64 ∧ ∀ v ∈ f.samplings, v < 2 ^ 64

/-- `fast_ef_sequence::save`, fast_ef_sequence.hpp:236-244.  A table of offsets that was never built is saved too: `junk` is
what it contains (its members are not initialised). -/
def FastEF.save (c : Emphf Nat 64) (junk : UTable Nat 64) (f : FastEF) : List Byte :=
  putU 8 f.ef.size ++ ((f.offsets.getD junk).save c ++ (putVec (putU 8) f.samplings ++
    (f.ef.high.save ++ (f.ef.d1.save ++ (f.ef.low.save ++ putU 1 f.ef.l)))))

/-- `fast_ef_sequence::load`, fast_ef_sequence.hpp:246-254. -/
def FastEF.load (c : Emphf Nat 64) : Rd FastEF :=
  Rd.bind (getU 8) fun size => Rd.bind (UTable.load c) fun offsets => Rd.bind (getVec (getU 8)) fun samplings =>
  Rd.bind BitVector.load fun high => Rd.bind DArray.load fun d1 => Rd.bind BitVector.load fun low => Rd.bind (getU 1) fun l =>
  Rd.ret ⟨⟨size, l, high, d1, low⟩, some offsets, samplings⟩

/-! ## Round trips -/

/-- C36: a saved `bit_vector` is loaded back unchanged. -/
theorem C36_bit_vector {b : BitVector} (h : b.Fits) : Spec.Reads BitVector.load b.save b :=
  .bind (getU8 h.1) (.last (getVec_putVec h.2 fun v _ => getWord_putWord (by omega) v) rfl)

/-- C36: a saved `compact_vector` is loaded back unchanged. -/
theorem C36_compact_vector {c : CompactVector} (h : c.Fits) : Spec.Reads CompactVector.load c.save c :=
  .bind (getU8 h.1) (.bind (getU8 h.2.1) (.bind (getWord_putWord (by omega) c.mask)
    (.last (getVec_putVec h.2.2 fun v _ => getWord_putWord (by omega) v) rfl)))

/-- C36: a saved `hash_compact_vector` is loaded back unchanged, if hashes are whole bytes. -/
theorem C36_hash_compact_vector {B : Nat} (hB : B % 8 = 0) {c : HCV B} (h : c.Fits) : Spec.Reads (HCV.load B) c.save c :=
  .bind (getU8 h.1) (.bind (getU8 h.2.1) (.bind (getWord_putWord (by omega) c.mask)
    (.last (getVec_putVec h.2.2 fun v _ => getWord_putWord (by omega) v) rfl)))

/-- C36: a saved `compact_triplets_vector` is loaded back unchanged. -/
theorem C36_compact_triplets_vector {c : CTVec} (h : c.Fits) : Spec.Reads CTVec.load c.save c :=
  .bind (getU8 h.1) (.bind (getU8 h.2.1) (.bind (getU8 h.2.2.1) (.bind (getU8 h.2.2.2.1)
    (.last (C36_bit_vector h.2.2.2.2) rfl))))

/-- C36: a saved `darray` is loaded back unchanged. -/
theorem C36_darray {d : DArray} (h : d.Fits) : Spec.Reads DArray.load d.save d :=
  .bind (getU8 h.1) (.bind (getVec_putVec h.2.1 fun v hv => getI_putI (h.2.2.2.2.1 v hv))
    (.bind (getVec_putVec h.2.2.1 fun v _ => getWord_putWord (by omega) v)
      (.last (getVec_putVec h.2.2.2.1 fun v hv => getU8 (h.2.2.2.2.2 v hv)) rfl)))

theorem DArray.empty_fits : DArray.empty.Fits := by simp [DArray.Fits, DArray.empty]

/-- C36: a saved `ef_sequence` is loaded back unchanged. -/
theorem C36_ef_sequence {e : EF} (h : e.Fits) : Spec.Reads EF.load e.save e :=
  .bind (getU1 h.2.1) (.bind (C36_bit_vector h.2.2.1) (.bind (C36_darray h.2.2.2.1) (.bind (C36_darray DArray.empty_fits)
    (.bind (C36_bit_vector h.2.2.2.2) (.last (getU8 h.1) rfl)))))

/-- C36: a saved `indexed_codewords_sequence` is loaded back unchanged. -/
theorem C36_indexed_codewords {s : ICSeq} (h : s.Fits) : Spec.Reads ICSeq.load s.save s :=
  .bind (getU8 h.1) (.bind (C36_bit_vector h.2.1) (.bind (C36_bit_vector h.2.2.1) (.last (C36_darray h.2.2.2) rfl)))

/-- C36: a saved `prefix_summed_sequence<ef_sequence>` is loaded back unchanged. -/
theorem C36_prefix_summed {e : EF} (h : e.Fits) : Spec.Reads PSEF.load (PSEF.save e) e :=
  .bind (getU8 h.1) (C36_ef_sequence h)

/-- C36: a saved `uniform_pef_sequence` is loaded back unchanged. -/
theorem C36_uniform_pef {f : PEF} (h : f.Fits) : Spec.Reads PEF.load f.save f :=
  .bind (getU8 h.1) (.bind (getU8 h.2.1) (.bind (getU8 h.2.2.1) (.bind (C36_compact_vector h.2.2.2.1)
    (.bind (C36_bit_vector h.2.2.2.2.1) (.last (getU1 h.2.2.2.2.2) rfl)))))

/-- C36: a saved hash function is loaded back unchanged. -/
theorem C36_mphf {K : Type} {B : Nat} {c : Emphf K B} {h : Mphf K B} (hf : h.Fits c) : Spec.Reads (Mphf.load c) (h.save c) h :=
  .bind (getU8 hf.1) (.bind (getU8 hf.2.1) (.bind hf.2.2.1 (.last hf.2.2.2 rfl)))

/-- C36: saved hash tables are loaded back unchanged. -/
theorem C36_tables {K : Type} {B : Nat} (hB : B % 8 = 0) {c : Emphf K B} :
    (∀ t : SVTable K B, t.Fits c → Spec.Reads (SVTable.load c) (t.save c) t) ∧
    (∀ t : DVTable K B, t.Fits c → Spec.Reads (DVTable.load c) (t.save c) t) ∧
    (∀ t : UTable K B, t.Fits c → Spec.Reads (UTable.load c) (t.save c) t) :=
  ⟨fun _ h => .bind (C36_mphf h.1) (.last (C36_hash_compact_vector hB h.2) rfl),
   fun _ h => .bind (C36_mphf h.1) (.last (C36_compact_triplets_vector h.2) rfl),
   fun _ h => .bind (C36_mphf h.1) (.last (C36_compact_vector h.2) rfl)⟩

/-- C36: a saved `fast_ef_sequence` is loaded back unchanged, except that a table of offsets that was never built is
replaced by the table with the uninitialised contents it had in memory. -/
theorem C36_fast_ef {c : Emphf Nat 64} {f : FastEF} (h : f.Fits c) {junk : UTable Nat 64} (hj : junk.Fits c) :
    Spec.Reads (FastEF.load c) (f.save c junk) { f with offsets := some (f.offsets.getD junk) } :=
  .bind (getU8 h.1.1) (.bind ((C36_tables (B := 64) rfl).2.2 _ (by
      cases ho : f.offsets with
      | none => exact hj
      | some t => exact h.2.1 t ho))
    (.bind (getVec_putVec h.2.2.1 fun v hv => getU8 (h.2.2.2 v hv)) (.bind (C36_bit_vector h.1.2.2.1)
      (.bind (C36_darray h.1.2.2.2.1) (.bind (C36_bit_vector h.1.2.2.2.2) (.last (getU1 h.1.2.1) rfl))))))

end Tongrams
