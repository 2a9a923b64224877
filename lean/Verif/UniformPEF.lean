import Verif.CompactEF
import Verif.IntegerCodes
import Verif.FastEF
import Verif.Trie

/-!
# include/sequences/uniform_pef_sequence.hpp

Partitioned Elias–Fano: partitions of 64 or 128 values, each encoded by `compact_elias_fano` relative to the
last value of the previous partition. The enumerator that answers `operator[]` and `find` is a member of the
sequence: its state is threaded through the calls.
-/

namespace Tongrams
open BitVector

/-- `uniform_pef_sequence`, serialised members: uniform_pef_sequence.hpp:516-523 (`m_params` is constant). -/
structure PEF where
  size : Nat
  univ : Nat
  partitions : Nat
  upper : CompactVector
  data : BitVector
  logPart : Nat
deriving DecidableEq

/-- `uniform_pef_sequence::enumerator`, the members that change after construction:
uniform_pef_sequence.hpp:441-464. -/
structure PEnum where
  endpointsOff : Nat
  endpointBits : Nat
  seqOff : Nat
  position : Nat
  curPartition : Nat
  curBegin : Nat
  curEnd : Nat
  curBase : Nat
  curUpper : Nat
  part : CEF.Enum

namespace PEF

/-- 64-bit subtraction. -/
def sub64 (a b : Nat) : Nat := (a + 2 ^ 64 - b) % 2 ^ 64

/-- The default-constructed builders, bit_vector.hpp:16-29 and compact_vector.hpp:57-63. -/
def noBits : BVBuilder := BVBuilder.new 0 false
/-- compact_vector.hpp:57-63. -/
def noInts : CVBuilder := { size := 0, width := 0, mask := 0, back := 0, curBlock := 0, curShift := 0, bits := [] }

/-- The single-partition branch of `write`, uniform_pef_sequence.hpp:73-95. -/
def writeSingle (vals : List Nat) (univ : Nat) : Res BVBuilder :=
  Res.bind (Res.lift vals.head?) fun base =>
  Res.bind (Res.lift (vals.map (sub64 · base)).getLast?) fun back =>
  Res.bind (Res.lift (noBits.appendBits (BitVec.ofNat 64 base) (ceilLog2 (BitVec.ofNat 64 (univ + 1))))) fun b =>
  Res.bind (Res.lift (if vals.length > 1 then
    writeDelta b (BitVec.ofNat 64 (if base + back + 1 = univ then 0 else back)) else some b)) fun b =>
  CEF.write b (vals.map (sub64 · base)) (back + 1)

/-- The loop over the partitions, uniform_pef_sequence.hpp:106-128, on the `k` remaining ones; `vals` are the
values not written yet, `ends` and `ups` the vectors `endpoints` and `upper_bounds`. -/
def writeParts (psize : Nat) : Nat → List Nat → Nat → BVBuilder → List Nat → List Nat → Res (BVBuilder × List Nat × List Nat)
  | 0, _, _, b, ends, ups => some (.ok (b, ends, ups))
  | k + 1, vals, base, b, ends, ups =>
    Res.bind (Res.lift ((vals.take psize).getLast?)) fun ub =>
    Res.bind (CEF.write b ((vals.take psize).map (sub64 · base)) (sub64 ub base + 1)) fun b =>
    writeParts psize k (vals.drop psize) ub b (ends ++ [b.size]) (ups ++ [ub])

/-- A number of `append_bits` calls, uniform_pef_sequence.hpp:140-142. -/
def appendAll (len : Nat) : List Nat → BVBuilder → Option BVBuilder
  | [], b => some b
  | v :: vs, b => (b.appendBits (BitVec.ofNat 64 v) len).bind (appendAll len vs)

/-- The branch of `write` for two partitions or more, uniform_pef_sequence.hpp:96-145. -/
def writeMulti (psize parts : Nat) (vals : List Nat) : Res (BVBuilder × CVBuilder) :=
  Res.bind (Res.lift vals.head?) fun base =>
  Res.bind (writeParts psize parts vals base noBits [] [base]) fun r =>
  Res.bind (Res.lift (r.2.2.getLast?)) fun last =>
  Res.bind (Res.lift (noInts.resize r.2.2.length (ceilLog2 (BitVec.ofNat 64 (last + 1))))) fun cvb =>
  Res.bind (Res.lift (cvb.fill (r.2.2.map (BitVec.ofNat 64)))) fun cvb =>
  Res.bind (Res.lift (writeGamma noBits (BitVec.ofNat 64 (ceilLog2 (BitVec.ofNat 64 (r.1.size + 1)))))) fun b =>
  Res.bind (Res.lift (appendAll (ceilLog2 (BitVec.ofNat 64 (r.1.size + 1))) r.2.1.dropLast b)) fun b =>
  Res.bind (Res.lift (b.append r.1)) fun b => some (.ok (b, cvb))

/-- `m_log_partition_size`, uniform_pef_sequence.hpp:58-61. -/
def logPartOf (order : Nat) : Nat := if order > 2 then 7 else 6

/-- `write(begin, universe, n, order)`, uniform_pef_sequence.hpp:52-153, without the initialisation of the
enumerator (`init` below). -/
def write (vals : List Nat) (univ order : Nat) : Res PEF :=
  let parts := ceilDiv vals.length (2 ^ logPartOf order)
  if parts = 1 then
    Res.bind (writeSingle vals univ) fun b =>
    some (.ok { size := vals.length, univ := univ, partitions := parts, upper := CompactVector.ofBuilder noInts
                data := BitVector.ofBuilder b, logPart := logPartOf order })
  else
    Res.bind (writeMulti (2 ^ logPartOf order) parts vals) fun r =>
    some (.ok { size := vals.length, univ := univ, partitions := parts, upper := CompactVector.ofBuilder r.2
                data := BitVector.ofBuilder r.1, logPart := logPartOf order })

/-- `build(begin, n, pointers, order)`, uniform_pef_sequence.hpp:17-45: each range of grams is shifted by the last
value before it (the same loop as fast_ef_sequence.hpp:18-46). -/
def build (grams ptrs : List Nat) (order : Nat) : Res PEF :=
  Res.bind (Res.lift (FastEF.groupVals grams ptrs)) fun vals =>
  Res.bind (Res.lift vals.getLast?) fun u => write vals u order

section Enumerator
variable (f : PEF) (junkU junkD : List W)

/-- `switch_partition(partition)`, uniform_pef_sequence.hpp:413-439; `junkU` is the memory after the words of
`m_upper_bounds`. -/
def switch (e : PEnum) (p : Nat) : Option PEnum :=
  (if p ≠ 0 then (f.data.getBits (e.endpointsOff + (p - 1) * e.endpointBits) e.endpointBits).map BitVec.toNat else some 0).bind fun endpoint =>
  (f.upper.access junkU (p + 1)).bind fun ub =>
  (f.upper.access junkU p).bind fun base =>
  some { e with
    curPartition := p, curBegin := p * 2 ^ f.logPart, curEnd := min f.size ((p + 1) * 2 ^ f.logPart)
    curUpper := ub.toNat, curBase := base.toNat
    part := CEF.Enum.new (e.seqOff + endpoint) ((sub64 ub.toNat base.toNat + 1) % 2 ^ 64)
      (sub64 (min f.size ((p + 1) * 2 ^ f.logPart)) (p * 2 ^ f.logPart)) }

/-- `m_cur_base + m_partition_enum.move(i).second`, uniform_pef_sequence.hpp:251-253, 349-352. -/
def partMove (e : PEnum) (i : Nat) : Option (Nat × PEnum) :=
  (e.part.move f.data.bits junkD i).map fun c => (e.curBase + c.value, { e with part := c })

/-- `slow_move()`, uniform_pef_sequence.hpp:340-354: the value returned (the position returned is `m_position`). -/
def slowMove (e : PEnum) : Option (Nat × PEnum) :=
  if e.position = f.size then
    (if f.partitions > 1 then f.switch junkU e (f.partitions - 1) else some e).bind fun e =>
    (f.partMove junkD e e.part.of.n).map fun r => (f.univ, r.2)
  else
    (f.switch junkU e (e.position / 2 ^ f.logPart)).bind fun e => f.partMove junkD e (e.position - e.curBegin)

/-- `move(position)`, uniform_pef_sequence.hpp:247-257. -/
def move (e : PEnum) (p : Nat) : Option (Nat × PEnum) :=
  if p ≥ e.curBegin ∧ p < e.curEnd then f.partMove junkD { e with position := p } (p - e.curBegin)
  else f.slowMove junkU junkD { e with position := p }

/-- The value of `ub` at lines 223-228 of uniform_pef_sequence.hpp: `auto ub = 0` makes it an `int`, so the
64-bit delta is truncated to 32 bits with sign. -/
def ubOf (univ base : Nat) (delta : W) : Int :=
  ((if delta ≠ 0 then delta else BitVec.ofNat 64 (sub64 (sub64 univ base) 1)).setWidth 32).toInt

/-- `enumerator::init`, the case of one partition, uniform_pef_sequence.hpp:215-232; `ub + 1` overflows an `int`
when `ub = 2^31 - 1`. -/
def initSingle : Option PEnum :=
  ((BitsIter.new f.data.bits 0).getBits (ceilLog2 (BitVec.ofNat 64 (f.univ + 1)))).bind fun r =>
  (if f.size > 1 then (readDelta r.2).map fun d => (ubOf f.univ r.1.toNat d.1, d.2) else some (0, r.2)).bind fun s =>
  if s.1 = 2 ^ 31 - 1 then none else
  some { endpointsOff := 0, endpointBits := 0, seqOff := 0, position := 0, curPartition := 0, curBegin := 0, curEnd := f.size
         curBase := r.1.toNat, curUpper := (((r.1.toNat : Int) + s.1) % 2 ^ 64).toNat
         part := CEF.Enum.new s.2.pos (((s.1 + 1) % 2 ^ 64).toNat) f.size }

/-- `enumerator::init`, uniform_pef_sequence.hpp:198-243. -/
def init : Option PEnum :=
  if f.partitions = 1 then f.initSingle
  else
    (readGamma (BitsIter.new f.data.bits 0)).bind fun r =>
    (f.slowMove junkU junkD
      { endpointsOff := r.2.pos, endpointBits := r.1.toNat, seqOff := r.2.pos + r.1.toNat * (f.partitions - 1), position := 0
        curPartition := 0, curBegin := 0, curEnd := 0, curBase := 0, curUpper := 0, part := CEF.Enum.new 0 0 0 }).map (·.2)

/-- `scan(vec, lo, hi, lower_bound)`, uniform_pef_sequence.hpp:328-338, with `fuel = hi + 1 - lo` rounds. -/
def scan (acc : Nat → Option Nat) (lb : Nat) : Nat → Nat → Option Nat
  | 0, lo => some lo
  | fuel + 1, lo => (acc lo).bind fun v => if v ≥ lb then some lo else scan acc lb fuel (lo + 1)

/-- The `while` loop of `bsearch`, uniform_pef_sequence.hpp:300-325; `last` is `vec->size() - 1`, `pid` the variable
`partition_id`. -/
def bsearchLoop (acc : Nat → Option Nat) (lb last : Nat) : Nat → Nat → Nat → Nat → Option Nat
  | 0, _, _, _ => none
  | fuel + 1, pid, lo, hi =>
    if lo ≤ hi then
      (acc ((lo + hi) / 2)).bind fun v =>
      if v > lb then
        let hi' := if (lo + hi) / 2 ≠ 0 then (lo + hi) / 2 - 1 else 0
        (acc hi').bind fun v' =>
        if lb > v' then some ((lo + hi) / 2)
        else if sub64 hi' lo ≤ 8 then scan acc lb (hi' + 1 - lo) lo else bsearchLoop acc lb last fuel pid lo hi'
      else if v < lb then
        let lo' := (lo + hi) / 2 + 1
        (if lo' ≠ last then acc lo' else acc last).bind fun v' =>
        if sub64 hi lo' ≤ 8 then scan acc lb (hi + 1 - lo') lo'
        else bsearchLoop acc lb last fuel (if lb < v' then lo' else pid) lo' hi
      else some ((lo + hi) / 2)
    else some pid

/-- `bsearch(vec, lower_bound, partition_begin, partition_end)`, uniform_pef_sequence.hpp:286-326. -/
def bsearch (acc : Nat → Option Nat) (lb last lo hi : Nat) : Option Nat :=
  if sub64 hi lo ≤ 8 then scan acc lb (hi + 1 - lo) lo
  else bsearchLoop acc lb last (hi + 1) lo lo hi

/-- `next_geq` and `slow_next_geq`, uniform_pef_sequence.hpp:259-280, 356-381: the value returned (the position
returned is `m_position`). They call each other; `fuel` bounds the depth. -/
def nextGeq (lb partEnd : Nat) : Nat → PEnum → Option (Nat × PEnum)
  | 0, _ => none
  | fuel + 1, e =>
    if lb ≥ e.curBase ∧ lb ≤ e.curUpper then
      (e.part.nextGeq f.data.bits junkD (lb - e.curBase)).map fun c =>
        (e.curBase + c.value, { e with part := c, position := e.curBegin + c.position })
    else if e.curPartition > partEnd then some (NF, e)
    else if lb < e.curBase then some (NF, e)
    else if f.partitions = 1 then
      if lb < e.curBase then f.move junkU junkD e 0 else f.move junkU junkD e f.size
    else
      (bsearch (fun i => (f.upper.access junkU i).map BitVec.toNat) lb (f.upper.size - 1) (e.curPartition + 1) (partEnd + 1)).bind fun pid =>
      if pid = 0 then f.move junkU junkD e 0
      else if pid = f.upper.size then f.move junkU junkD e f.size
      else (f.switch junkU e (pid - 1)).bind fun e => nextGeq lb partEnd fuel e

/-- `operator[](position)`, uniform_pef_sequence.hpp:155-157. -/
def get (e : PEnum) (i : Nat) : Option (Nat × PEnum) := f.move junkU junkD e i

/-- The end of `find`, uniform_pef_sequence.hpp:184-190, where `lb` is the sum `id + prev_upper`. -/
def findFrom (lb partEnd : Nat) (e : PEnum) : Option (Nat × PEnum) :=
  (f.nextGeq junkU junkD lb partEnd (f.partitions + 2) e).map fun s => (if s.1 = lb then s.2.position else NF, s.2)

/-- `find(r, id, &pos)`, uniform_pef_sequence.hpp:159-191: the value stored in `*pos` and the new state. -/
def find (e : PEnum) (b en id : Nat) : Option (Nat × PEnum) :=
  if b = en then some (NF, e)
  else if id = 0 then some (b, e)
  else
    (if f.partitions > 1 then f.switch junkU e (b / 2 ^ f.logPart) else some e).bind fun e =>
    (if b ≠ 0 then f.get junkU junkD e (b - 1) else some (0, e)).bind fun r =>
    f.findFrom junkU junkD ((id + r.1) % 2 ^ 64) (en / 2 ^ f.logPart) r.2

end Enumerator
end PEF
end Tongrams
