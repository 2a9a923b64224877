import Verif.PropsBitVector

/-!
# The write position of `bit_vector_builder` (include/vectors/bit_vector.hpp:66-198)

BitVector.lean takes `m_cur_word` for an index into the words of the builder.  In the code it is a pointer into the storage of `m_bits`, and that storage moves
when the vector grows.  Here several builders live in one memory, vectors are moved to new addresses whenever they grow and the allocator likes, addresses are
used again after they were freed, and an access through a pointer to freed storage is undefined behaviour.
-/

set_option linter.unusedSectionVars false

namespace Tongrams

/-- The memory: at each address that is in use, the words of a vector. -/
abbrev WordMem := Nat → Option (List W)

/-- `f` with another value for `k`. -/
def upd {α : Type} (f : Nat → Option α) (k : Nat) (x : Option α) : Nat → Option α := fun n => if n = k then x else f n

/-- `bit_vector_builder`, members: bit_vector.hpp:196-198: the address of the words of `m_bits`, `m_size`, and the pointer `m_cur_word` (`none`: not
initialised) as an address and an index. -/
structure PBuilder where
  buf : Nat
  size : Nat
  cur : Option (Nat × Nat)

/-- `std::vector` takes the words `ws`, more than before: in place, or at the address `q`, after which the old one is free. -/
def PBuilder.grow (m : WordMem) (p : PBuilder) (ws : List W) : Option Nat → WordMem × PBuilder
  | none => (upd m p.buf (some ws), p)
  | some q => (upd (upd m p.buf none) q (some ws), { p with buf := q })

/-- `append_bits(bits, len)`, bit_vector.hpp:122-137. -/
def PBuilder.appendBits (m : WordMem) (p : PBuilder) (v : W) (len : Nat) (c : Option Nat) : Option (WordMem × PBuilder) :=
  if len = 0 then some (m, p) else
  let pos := p.size % 64
  if pos = 0 then Option.bind (m p.buf) fun ws =>
    let r := PBuilder.grow m p (ws ++ [v]) c
    some (r.1, { r.2 with size := p.size + len, cur := some (r.2.buf, ws.length) })
  else Option.bind p.cur fun cur => Option.bind (m cur.1) fun us => Option.bind (wr us cur.2 fun x => x ||| (v <<< pos)) fun us =>
    let m := upd m cur.1 (some us)
    Option.bind (m p.buf) fun ws =>
    if len > 64 - pos then
      let r := PBuilder.grow m p (ws ++ [v >>> (64 - pos)]) c
      some (r.1, { r.2 with size := p.size + len, cur := some (r.2.buf, ws.length) })
    else some (m, { p with size := p.size + len, cur := some (p.buf, ws.length - 1) })

/-- `zero_extend(n)`, bit_vector.hpp:87-94. -/
def PBuilder.zeroExtend (m : WordMem) (p : PBuilder) (n : Nat) (c : Option Nat) : Option (WordMem × PBuilder) :=
  Option.bind (m p.buf) fun ws =>
  let needed := wordsFor (p.size + n) - ws.length
  if needed ≠ 0 then
    let r := PBuilder.grow m p (ws ++ List.replicate needed 0) c
    some (r.1, { r.2 with size := p.size + n, cur := some (r.2.buf, ws.length + needed - 1) })
  else some (m, { p with size := p.size + n })

/-- `append(rhs)`, bit_vector.hpp:150-174; `self`: `rhs` is the builder itself, whose words have been resized when they are read.  (What the words of the
builder itself are while they are overwritten is not modelled: the words before the loop are taken.) -/
def PBuilder.append (m : WordMem) (p rhs : PBuilder) (self : Bool) (c : Option Nat) : Option (WordMem × PBuilder) :=
  if rhs.size = 0 then some (m, p) else
  Option.bind (m p.buf) fun ws =>
  let pos := ws.length
  let shift := p.size % 64
  let ws := resizeWords ws (wordsFor (p.size + rhs.size))
  let r := PBuilder.grow m p ws c
  Option.bind (r.1 (if self then r.2.buf else rhs.buf)) fun rs =>
  Option.bind (if shift = 0 then BVBuilder.copyAt ws pos rs else if pos = 0 then none else BVBuilder.appendLoop shift rs ws (pos - 1)) fun ws =>
  some (upd r.1 r.2.buf (some ws), { r.2 with size := p.size + rhs.size, cur := some (r.2.buf, ws.length - 1) })

/-- What a program does with its builders, which have numbers.  `q` is the address that the allocator gives a new vector, `c` where it moves a vector that
grows. -/
inductive BOp where
  | new (i q size : Nat) (init : Bool)
  | destroy (i : Nat)
  | init (i : Nat)
  | reserve (i : Nat) (c : Option Nat)
  | zeroExtend (i n : Nat) (c : Option Nat)
  | set (i pos : Nat) (b : Bool)
  | setBits (i pos : Nat) (v : W) (len : Nat)
  | appendBits (i : Nat) (v : W) (len : Nat) (c : Option Nat)
  | append (i j : Nat) (c : Option Nat)
  | resize (i size : Nat) (c : Option Nat)
  | swap (i j : Nat)
  | copy (i j q : Nat)

/-- The memory and the builders of a program. -/
structure BSys where
  mem : WordMem
  obj : Nat → Option PBuilder

/-- Nothing. -/
def BSys.empty : BSys := ⟨fun _ => none, fun _ => none⟩

/-- The allocator only gives addresses that are free. -/
def BOp.Fresh (S : BSys) : BOp → Prop
  | .new _ q _ _ => S.mem q = none
  | .copy _ _ q => S.mem q = none
  | .reserve _ c | .zeroExtend _ _ c | .appendBits _ _ _ c | .append _ _ c | .resize _ _ c => ∀ q ∈ c, S.mem q = none
  | _ => True

/-- The builder with the words of `p`, for the operations that do not use `m_cur_word` (BitVector.lean). -/
abbrev plain (ws : List W) (size : Nat) : BVBuilder := ⟨ws, size, some (ws.length - 1)⟩

/-- One operation: the constructor (bit_vector.hpp:67-76), the destructor, `init` (78-81), `reserve` (83-85), `zero_extend`, `set` (96-101), `set_bits`
(103-120), `append_bits`, `append`, `resize` (176-179), `swap` (181-185: a vector takes its storage with it) and the implicit copy constructor, which copies
the pointer. -/
def BSys.step (S : BSys) : BOp → Option BSys
  | .new i q size init =>
    let ws := (BVBuilder.new size init).bits
    some ⟨upd S.mem q (some ws), upd S.obj i (some ⟨q, size, if size ≠ 0 then some (q, ws.length - 1) else none⟩)⟩
  | .destroy i => Option.bind (S.obj i) fun p => some ⟨upd S.mem p.buf none, upd S.obj i none⟩
  | .init i => Option.bind (S.obj i) fun p => some ⟨upd S.mem p.buf (some []), upd S.obj i (some { p with size := 0 })⟩
  | .reserve i c => Option.bind (S.obj i) fun p => Option.bind (S.mem p.buf) fun ws =>
    let r := p.grow S.mem ws c
    some ⟨r.1, upd S.obj i (some r.2)⟩
  | .zeroExtend i n c => Option.bind (S.obj i) fun p => Option.bind (p.zeroExtend S.mem n c) fun r => some ⟨r.1, upd S.obj i (some r.2)⟩
  | .set i pos b => Option.bind (S.obj i) fun p => Option.bind (S.mem p.buf) fun ws => Option.bind ((plain ws p.size).set pos b) fun b' =>
    some ⟨upd S.mem p.buf (some b'.bits), S.obj⟩
  | .setBits i pos v len => Option.bind (S.obj i) fun p => Option.bind (S.mem p.buf) fun ws => Option.bind ((plain ws p.size).setBits pos v len) fun b' =>
    some ⟨upd S.mem p.buf (some b'.bits), S.obj⟩
  | .appendBits i v len c => Option.bind (S.obj i) fun p => Option.bind (p.appendBits S.mem v len c) fun r => some ⟨r.1, upd S.obj i (some r.2)⟩
  | .append i j c => Option.bind (S.obj i) fun p => Option.bind (S.obj j) fun rhs => Option.bind (p.append S.mem rhs (i == j) c) fun r =>
    some ⟨r.1, upd S.obj i (some r.2)⟩
  | .resize i size c => Option.bind (S.obj i) fun p => Option.bind (S.mem p.buf) fun ws =>
    let r := p.grow S.mem (resizeWords ws (wordsFor size)) c
    some ⟨r.1, upd S.obj i (some { r.2 with size := size })⟩
  | .swap i j => Option.bind (S.obj i) fun p => Option.bind (S.obj j) fun p' => some ⟨S.mem, upd (upd S.obj i (some p')) j (some p)⟩
  | .copy i j q => Option.bind (S.obj j) fun p => Option.bind (S.mem p.buf) fun ws =>
    some ⟨upd S.mem q (some ws), upd S.obj i (some { p with buf := q })⟩

/-- Specification: the lists of bits that the builders stand for after an operation; `none` if the operation is not allowed: its arguments are out of range, the
name is taken or not in use, a builder is appended to itself, one is copied, or `reserve` or `resize` leave a word half full. -/
def Spec.bitLists (L : Nat → Option (List Bool)) : BOp → Option (Nat → Option (List Bool))
  | .new i _ size init => if L i = none then some (upd L i (some (List.replicate size init))) else none
  | .destroy i => (L i).map fun _ => upd L i none
  | .init i => (L i).map fun _ => upd L i (some [])
  | .reserve i _ => Option.bind (L i) fun l => if l.length % 64 = 0 then some L else none
  | .zeroExtend i n _ => (L i).map fun l => upd L i (some (l ++ List.replicate n false))
  | .set i pos b => Option.bind (L i) fun l => if pos < l.length then some (upd L i (some (l.set pos b))) else none
  | .setBits i pos v len => Option.bind (L i) fun l => if len ≤ 64 ∧ v.toNat < 2 ^ len ∧ pos + len ≤ l.length then
      some (upd L i (some (l.take pos ++ (List.range len).map v.getLsbD ++ l.drop (pos + len)))) else none
  | .appendBits i v len _ => Option.bind (L i) fun l => if len ≤ 64 ∧ v.toNat < 2 ^ len then
      some (upd L i (some (l ++ (List.range len).map v.getLsbD))) else none
  | .append i j _ => Option.bind (L i) fun l => Option.bind (L j) fun l' => if i ≠ j then some (upd L i (some (l ++ l'))) else none
  | .resize i n _ => Option.bind (L i) fun l => if n % 64 = 0 then some (upd L i (some (l.take n ++ List.replicate (n - l.length) false))) else none
  | .swap i j => Option.bind (L i) fun l => Option.bind (L j) fun l' => some (upd (upd L i (some l')) j (some l))
  | .copy _ _ _ => none

/-- The programs that keep to this, with an allocator that only gives free addresses: their states, and the lists their builders should stand for. -/
inductive BReach : BSys → (Nat → Option (List Bool)) → Prop
  | start : BReach .empty fun _ => none
  | step {S S' : BSys} {L L' : Nat → Option (List Bool)} (op : BOp) : BReach S L → op.Fresh S → Spec.bitLists L op = some L' → S.step op = some S' → BReach S' L'

/-! ## Proofs -/

namespace BuilderMemory

theorem upd_same {α : Type} (f : Nat → Option α) (k : Nat) (x : Option α) : upd f k x k = x := if_pos rfl

theorem upd_other {α : Type} (f : Nat → Option α) {k n : Nat} (x : Option α) (h : n ≠ k) : upd f k x n = f n := if_neg h

/-- The builder stands for the list, and its pointer is right if the last word is not full. -/
def Holds (m : WordMem) (p : PBuilder) (l : List Bool) : Prop :=
  ∃ ws, m p.buf = some ws ∧ (plain ws p.size).WF ∧ (plain ws p.size).toBools = l ∧ (p.size % 64 ≠ 0 → p.cur = some (p.buf, ws.length - 1))

/-- All builders do, and no two share their words. -/
structure Inv (S : BSys) (L : Nat → Option (List Bool)) : Prop where
  dead : ∀ i, L i = none → S.obj i = none
  alive : ∀ i l, L i = some l → ∃ p, S.obj i = some p ∧ Holds S.mem p l
  apart : ∀ i j p p', S.obj i = some p → S.obj j = some p' → p.buf = p'.buf → i = j

/-- Only the words of `p` change, which may move to a free address. -/
def Local (m : WordMem) (p : PBuilder) (m' : WordMem) (p' : PBuilder) : Prop :=
  (p'.buf = p.buf ∨ m p'.buf = none) ∧ ∀ a, a ≠ p.buf → a ≠ p'.buf → m' a = m a

theorem live {S : BSys} {L : Nat → Option (List Bool)} (h : Inv S L) {i : Nat} {p : PBuilder} (hp : S.obj i = some p) : ∃ l, L i = some l ∧ Holds S.mem p l := by
  cases e : L i with
  | none => rw [h.dead i e] at hp; cases hp
  | some l =>
    obtain ⟨p', e', hh⟩ := h.alive i l e
    rw [hp] at e'; cases e'
    exact ⟨l, rfl, hh⟩

/-- An operation on one builder. -/
theorem put {S : BSys} {L : Nat → Option (List Bool)} (h : Inv S L) {i : Nat} {p : PBuilder} (hp : S.obj i = some p) {m' : WordMem} {p' : PBuilder}
    (hl : Local S.mem p m' p') {l' : List Bool} (hh : Holds m' p' l') : Inv ⟨m', upd S.obj i (some p')⟩ (upd L i (some l')) := by
  have hother : ∀ j p2, j ≠ i → S.obj j = some p2 → p2.buf ≠ p.buf ∧ p2.buf ≠ p'.buf := by
    intro j p2 hj h2
    have h1 : p2.buf ≠ p.buf := fun e => hj (h.apart j i p2 p h2 hp e)
    refine ⟨h1, ?_⟩
    rcases hl.1 with e | e
    · rw [e]; exact h1
    · obtain ⟨l2, -, ws, e2, -⟩ := live h h2
      intro e3
      rw [← e3, e2] at e
      cases e
  refine ⟨?_, ?_, ?_⟩
  · intro j hj
    by_cases e : j = i
    · subst e; rw [upd_same] at hj; cases hj
    · rw [upd_other _ _ e] at hj
      show upd S.obj i _ j = _
      rw [upd_other _ _ e]
      exact h.dead j hj
  · intro j l hj
    by_cases e : j = i
    · subst e
      rw [upd_same] at hj; cases hj
      exact ⟨p', upd_same _ _ _, hh⟩
    · rw [upd_other _ _ e] at hj
      obtain ⟨p2, e2, ws, e3, e4⟩ := h.alive j l hj
      obtain ⟨h1, h2⟩ := hother j p2 e e2
      refine ⟨p2, ?_, ws, ?_, e4⟩
      · show upd S.obj i _ j = _
        rw [upd_other _ _ e]; exact e2
      · show m' p2.buf = _
        rw [hl.2 _ h1 h2]; exact e3
  · intro a b pa pb ha hb hab
    replace ha : upd S.obj i (some p') a = some pa := ha
    replace hb : upd S.obj i (some p') b = some pb := hb
    by_cases ea : a = i
    · by_cases eb : b = i
      · rw [ea, eb]
      · rw [upd_other _ _ eb] at hb
        rw [ea, upd_same] at ha; cases ha
        exact absurd hab.symm (hother b pb eb hb).2
    · rw [upd_other _ _ ea] at ha
      by_cases eb : b = i
      · rw [eb, upd_same] at hb; cases hb
        exact absurd hab (hother a pa ea ha).2
      · rw [upd_other _ _ eb] at hb
        exact h.apart a b pa pb ha hb hab

/-- The words after a vector has grown. -/
theorem grow_spec {m : WordMem} {p : PBuilder} {ws : List W} {c : Option Nat} (hc : ∀ q ∈ c, m q = none) :
    (p.grow m ws c).1 (p.grow m ws c).2.buf = some ws ∧ Local m p (p.grow m ws c).1 (p.grow m ws c).2 ∧ (p.grow m ws c).2.size = p.size ∧
      (p.grow m ws c).2.cur = p.cur ∧ (c = none → (p.grow m ws c).2 = p) := by
  cases c with
  | none => exact ⟨upd_same _ _ _, ⟨.inl rfl, fun a h _ => upd_other _ _ h⟩, rfl, rfl, fun _ => rfl⟩
  | some q =>
    refine ⟨upd_same _ _ _, ⟨.inr (hc q rfl), fun a h1 h2 => ?_⟩, rfl, rfl, fun h => by cases h⟩
    have h2 : a ≠ q := h2
    show upd (upd m p.buf none) q _ a = _
    rw [upd_other _ _ h2, upd_other _ _ h1]

theorem holds_of {m : WordMem} {p : PBuilder} {b : BVBuilder} (h1 : m p.buf = some b.bits) (h2 : p.size = b.size) (hw : b.WF)
    (h3 : p.size % 64 ≠ 0 → p.cur = some (p.buf, b.bits.length - 1)) : Holds m p b.toBools :=
  ⟨b.bits, h1, ⟨by rw [h2]; exact hw.len, by rw [h2]; exact hw.high, fun _ => rfl⟩, by rw [h2]; rfl, h3⟩

theorem appendBits_ok {m : WordMem} {p : PBuilder} {l : List Bool} (h : Holds m p l) {v : W} {len : Nat} (hl : len ≤ 64) (hv : v.toNat < 2 ^ len)
    {c : Option Nat} (hc : ∀ q ∈ c, m q = none) :
    ∃ r, p.appendBits m v len c = some r ∧ Local m p r.1 r.2 ∧ Holds r.1 r.2 (l ++ (List.range len).map v.getLsbD) := by
  obtain ⟨ws, e, hw, rfl, hcur⟩ := h
  obtain ⟨b', e', hw', ht'⟩ := BVBuilder.appendBits_wf hw hl hv
  rw [show (List.range len).map v.getLsbD = Spec.bitsOf v len from rfl, ← ht']
  unfold PBuilder.appendBits
  unfold BVBuilder.appendBits at e'
  by_cases h0 : len = 0
  · rw [if_pos h0] at e' ⊢
    cases e'
    exact ⟨_, rfl, ⟨.inl rfl, fun _ _ _ => rfl⟩, holds_of (b := plain ws p.size) e rfl hw hcur⟩
  rw [if_neg h0] at e' ⊢
  simp only at e' ⊢
  by_cases hp : p.size % 64 = 0
  · rw [if_pos hp] at e' ⊢
    rw [e, Option.bind_some]
    cases e'
    obtain ⟨g1, g2, g3, g4, g5⟩ := grow_spec (p := p) (ws := ws ++ [v]) hc
    refine ⟨_, rfl, g2, holds_of g1 rfl hw' fun _ => ?_⟩
    simp
  · rw [if_neg hp] at e' ⊢
    rw [hcur hp, Option.bind_some, e, Option.bind_some]
    obtain ⟨us, e1, e'⟩ := Option.bind_eq_some_iff.1 e'
    cases e1
    obtain ⟨us, e1, e'⟩ := Option.bind_eq_some_iff.1 e'
    rw [e1, Option.bind_some, upd_same, Option.bind_some]
    by_cases hc2 : len > 64 - p.size % 64
    · rw [if_pos hc2] at e' ⊢
      cases e'
      obtain ⟨g1, g2, g3, g4, g5⟩ := grow_spec (m := upd m p.buf (some us)) (p := p) (ws := us ++ [v >>> (64 - p.size % 64)]) (c := c) (by
        intro q hq
        have h1 := hc q hq
        by_cases e2 : q = p.buf
        · rw [e2, e] at h1; cases h1
        · rw [upd_other _ _ e2]; exact h1)
      refine ⟨_, rfl, ⟨?_, ?_⟩, holds_of g1 rfl hw' fun _ => ?_⟩
      · rcases g2.1 with e2 | e2
        · exact .inl e2
        · by_cases e3 : (PBuilder.grow (upd m p.buf (some us)) p (us ++ [v >>> (64 - p.size % 64)]) c).2.buf = p.buf
          · exact .inl e3
          · rw [upd_other _ _ e3] at e2; exact .inr e2
      · intro a h1 h2
        rw [g2.2 a h1 h2, upd_other _ _ h1]
      · simp
    · rw [if_neg hc2] at e' ⊢
      cases e'
      exact ⟨_, rfl, ⟨.inl rfl, fun a h1 _ => upd_other _ _ h1⟩, holds_of (upd_same _ _ _) rfl hw' fun _ => rfl⟩

theorem zeroExtend_ok {m : WordMem} {p : PBuilder} {l : List Bool} (h : Holds m p l) (n : Nat) {c : Option Nat} (hc : ∀ q ∈ c, m q = none) :
    ∃ r, p.zeroExtend m n c = some r ∧ Local m p r.1 r.2 ∧ Holds r.1 r.2 (l ++ List.replicate n false) := by
  obtain ⟨ws, e, hw, rfl, hcur⟩ := h
  obtain ⟨hw', ht'⟩ := BVBuilder.zeroExtend_wf hw n
  rw [← ht']
  unfold PBuilder.zeroExtend
  rw [e, Option.bind_some]
  simp only
  have hlen : ws.length = wordsFor p.size := hw.len
  by_cases h0 : wordsFor (p.size + n) - ws.length ≠ 0
  · rw [if_pos h0]
    obtain ⟨g1, g2, g3, g4, g5⟩ := grow_spec (p := p) (ws := ws ++ List.replicate (wordsFor (p.size + n) - ws.length) 0) hc
    have eb : (plain ws p.size).zeroExtend n = ⟨ws ++ List.replicate (wordsFor (p.size + n) - ws.length) 0, p.size + n,
        some ((ws ++ List.replicate (wordsFor (p.size + n) - ws.length) 0#64).length - 1)⟩ := by
      unfold BVBuilder.zeroExtend
      simp only
      rw [if_pos h0]
      rfl
    rw [eb] at hw' ⊢
    refine ⟨_, rfl, g2, holds_of g1 rfl hw' fun _ => ?_⟩
    simp
  · rw [if_neg h0]
    have eb : (plain ws p.size).zeroExtend n = ⟨ws, p.size + n, some (ws.length - 1)⟩ := by
      unfold BVBuilder.zeroExtend
      simp only
      rw [if_neg h0]
    rw [eb] at hw' ⊢
    refine ⟨_, rfl, ⟨.inl rfl, fun _ _ _ => rfl⟩, holds_of e rfl hw' fun hs => ?_⟩
    replace hs : (p.size + n) % 64 ≠ 0 := hs
    show p.cur = _
    refine hcur fun hz => ?_
    unfold wordsFor at h0 hlen
    omega

theorem append_ok {m : WordMem} {p rhs : PBuilder} {l l' : List Bool} (h : Holds m p l) (h' : Holds m rhs l') (hb : rhs.buf ≠ p.buf) {c : Option Nat}
    (hc : ∀ q ∈ c, m q = none) : ∃ r, p.append m rhs false c = some r ∧ Local m p r.1 r.2 ∧ Holds r.1 r.2 (l ++ l') := by
  obtain ⟨ws, e, hw, rfl, hcur⟩ := h
  obtain ⟨rs, er, hwr, rfl, -⟩ := h'
  obtain ⟨b', e', hw', ht'⟩ := BVBuilder.append_wf hw hwr
  rw [← ht']
  unfold PBuilder.append
  unfold BVBuilder.append at e'
  by_cases h0 : rhs.size = 0
  · rw [if_pos h0] at e' ⊢
    cases e'
    exact ⟨_, rfl, ⟨.inl rfl, fun _ _ _ => rfl⟩, holds_of (b := plain ws p.size) e rfl hw hcur⟩
  rw [if_neg h0] at e' ⊢
  rw [e, Option.bind_some]
  simp only at e' ⊢
  obtain ⟨g1, g2, g3, g4, g5⟩ := grow_spec (p := p) (ws := resizeWords ws (wordsFor (p.size + rhs.size))) hc
  have hr : (PBuilder.grow m p (resizeWords ws (wordsFor (p.size + rhs.size))) c).1 rhs.buf = some rs := by
    rw [g2.2 _ hb ?_, er]
    intro e2
    rcases g2.1 with e3 | e3
    · exact hb (e2.trans e3)
    · rw [← e2, er] at e3; cases e3
  obtain ⟨us, e1, rfl⟩ : ∃ us, (if p.size % 64 = 0 then BVBuilder.copyAt (resizeWords ws (wordsFor (p.size + rhs.size))) ws.length rs
      else if ws.length = 0 then none else BVBuilder.appendLoop (p.size % 64) rs (resizeWords ws (wordsFor (p.size + rhs.size))) (ws.length - 1)) = some us ∧
      (⟨us, p.size + rhs.size, some (us.length - 1)⟩ : BVBuilder) = b' := by
    by_cases hp : p.size % 64 = 0
    · rw [if_pos hp] at e' ⊢
      obtain ⟨us, e1, e2⟩ := Option.bind_eq_some_iff.1 e'
      exact ⟨us, e1, Option.some.inj e2⟩
    · rw [if_neg hp] at e' ⊢
      by_cases hz : ws.length = 0
      · rw [if_pos hz] at e'; cases e'
      · rw [if_neg hz] at e' ⊢
        obtain ⟨us, e1, e2⟩ := Option.bind_eq_some_iff.1 e'
        exact ⟨us, e1, Option.some.inj e2⟩
  rw [if_neg (by decide), hr, Option.bind_some, e1, Option.bind_some]
  refine ⟨_, rfl, ⟨g2.1, fun a h1 h2 => ?_⟩, holds_of (upd_same _ _ _) rfl hw' fun _ => rfl⟩
  show upd _ _ _ a = _
  rw [upd_other _ _ h2, g2.2 a h1 h2]

theorem start_inv : Inv .empty fun _ => none := ⟨fun _ _ => rfl, (fun _ _ h => nomatch h), (fun _ _ _ _ h _ _ => nomatch h)⟩

theorem resize_wf (ws : List W) (size n : Nat) (hw : (plain ws size).WF) (hn : n % 64 = 0) :
    (plain (resizeWords ws (wordsFor n)) n).WF ∧ (plain (resizeWords ws (wordsFor n)) n).toBools =
      (plain ws size).toBools.take n ++ List.replicate (n - (plain ws size).toBools.length) false := by
  have hlen : (resizeWords ws (wordsFor n)).length = wordsFor n := length_resizeWords _ _
  have hbit : ∀ k, k < n → bitAt (resizeWords ws (wordsFor n)) k = bitAt ws k := by
    intro k hk
    by_cases h : ws.length ≤ wordsFor n
    · exact bitAt_resizeWords h k
    · unfold resizeWords
      rw [show wordsFor n - ws.length = 0 by omega, List.replicate_zero, List.append_nil]
      unfold bitAt
      have : k / 64 < wordsFor n := by unfold wordsFor; omega
      rw [List.getD_eq_getElem?_getD, List.getElem?_take, if_pos this, List.getD_eq_getElem?_getD]
  have hws : n = 64 * wordsFor n := by unfold wordsFor; omega
  refine ⟨⟨hlen, fun k hk => bitAt_of_ge ?_, fun _ => rfl⟩, ?_⟩
  · replace hk : n ≤ k := hk
    show 64 * (resizeWords ws (wordsFor n)).length ≤ k
    omega
  · apply BVBuilder.toBools_ext
    · show n = _
      simp [BVBuilder.length_toBools]; omega
    · intro k hk
      have hkn : k < n := by simp [BVBuilder.length_toBools] at hk; omega
      show bitAt (resizeWords ws (wordsFor n)) k = _
      rw [hbit k hkn]
      by_cases hks : k < size
      · rw [List.getElem_append_left (by simp [BVBuilder.length_toBools]; omega), List.getElem_take, BVBuilder.getElem_toBools]
      · rw [List.getElem_append_right (by simp [BVBuilder.length_toBools]; omega), List.getElem_replicate]
        exact hw.high k (by show size ≤ k; omega)

/-- Every allowed operation succeeds and keeps the invariant. -/
theorem step_ok {S : BSys} {L L' : Nat → Option (List Bool)} (h : Inv S L) {op : BOp} (hf : op.Fresh S) (hs : Spec.bitLists L op = some L') :
    ∃ S', S.step op = some S' ∧ Inv S' L' := by
  cases op with
  | new i q size init =>
    unfold Spec.bitLists at hs
    by_cases hi : L i = none
    · simp only [if_pos hi] at hs
      cases hs
      refine ⟨_, rfl, ?_⟩
      replace hf : S.mem q = none := hf
      have hq : ∀ j p, S.obj j = some p → p.buf ≠ q := by
        intro j p hp e
        obtain ⟨l, -, ws, e2, -⟩ := live h hp
        rw [e, hf] at e2; cases e2
      obtain ⟨hw, ht⟩ := BVBuilder.new_wf size init
      have hsz : (BVBuilder.new size init).size = size := by unfold BVBuilder.new; simp only; split <;> rfl
      refine ⟨?_, ?_, ?_⟩
      · intro j hj
        by_cases e : j = i
        · subst e; rw [upd_same] at hj; cases hj
        · rw [upd_other _ _ e] at hj
          show upd S.obj i _ j = _
          rw [upd_other _ _ e]; exact h.dead j hj
      · intro j l hj
        by_cases e : j = i
        · subst e
          rw [upd_same] at hj; cases hj
          refine ⟨_, upd_same _ _ _, ?_⟩
          rw [← ht]
          refine holds_of (upd_same _ _ _) hsz.symm hw fun hp => ?_
          replace hp : size % 64 ≠ 0 := hp
          show (if size ≠ 0 then _ else _) = _
          rw [if_pos (by rintro rfl; exact hp rfl)]
        · rw [upd_other _ _ e] at hj
          obtain ⟨p2, e2, ws, e3, e4⟩ := h.alive j l hj
          refine ⟨p2, ?_, ws, ?_, e4⟩
          · show upd S.obj i _ j = _
            rw [upd_other _ _ e]; exact e2
          · show upd S.mem q _ p2.buf = _
            rw [upd_other _ _ (hq j p2 e2)]; exact e3
      · intro a b pa pb ha hb hab
        replace ha : upd S.obj i _ a = some pa := ha
        replace hb : upd S.obj i _ b = some pb := hb
        by_cases ea : a = i
        · by_cases eb : b = i
          · rw [ea, eb]
          · rw [upd_other _ _ eb] at hb
            rw [ea, upd_same] at ha; cases ha
            exact absurd hab.symm (hq b pb hb)
        · rw [upd_other _ _ ea] at ha
          by_cases eb : b = i
          · rw [eb, upd_same] at hb; cases hb
            exact absurd hab (hq a pa ha)
          · rw [upd_other _ _ eb] at hb
            exact h.apart a b pa pb ha hb hab
    · simp only [if_neg hi] at hs; cases hs
  | destroy i =>
    obtain ⟨l, el, rfl⟩ := Option.map_eq_some_iff.1 hs
    obtain ⟨p, hp, -⟩ := h.alive i l el
    refine ⟨_, by unfold BSys.step; simp only; rw [hp, Option.bind_some], ?_⟩
    refine ⟨?_, ?_, ?_⟩
    · intro j hj
      show upd S.obj i _ j = _
      by_cases e : j = i
      · subst e; exact upd_same _ _ _
      · rw [upd_other _ _ e] at hj ⊢; exact h.dead j hj
    · intro j l2 hj
      by_cases e : j = i
      · subst e; rw [upd_same] at hj; cases hj
      · rw [upd_other _ _ e] at hj
        obtain ⟨p2, e2, ws, e3, e4⟩ := h.alive j l2 hj
        refine ⟨p2, ?_, ws, ?_, e4⟩
        · show upd S.obj i _ j = _
          rw [upd_other _ _ e]; exact e2
        · show upd S.mem p.buf _ p2.buf = _
          rw [upd_other _ _ (fun e5 => e (h.apart j i p2 p e2 hp e5))]; exact e3
    · intro a b pa pb ha hb hab
      replace ha : upd S.obj i _ a = some pa := ha
      replace hb : upd S.obj i _ b = some pb := hb
      by_cases ea : a = i
      · rw [ea, upd_same] at ha; cases ha
      · by_cases eb : b = i
        · rw [eb, upd_same] at hb; cases hb
        · rw [upd_other _ _ ea] at ha
          rw [upd_other _ _ eb] at hb
          exact h.apart a b pa pb ha hb hab
  | init i =>
    obtain ⟨l, el, rfl⟩ := Option.map_eq_some_iff.1 hs
    obtain ⟨p, hp, -⟩ := h.alive i l el
    refine ⟨_, by unfold BSys.step; simp only; rw [hp, Option.bind_some], ?_⟩
    refine put h hp (p' := { p with size := 0 }) ⟨.inl rfl, fun a h1 _ => upd_other _ _ h1⟩ ?_
    exact ⟨[], upd_same _ _ _, ⟨by simp [wordsFor], fun k _ => by simp [bitAt], fun h => absurd rfl h⟩, rfl, fun h => absurd rfl h⟩
  | reserve i c =>
    obtain ⟨l, el, hs⟩ := Option.bind_eq_some_iff.1 hs
    by_cases hm : l.length % 64 = 0
    · rw [if_pos hm] at hs
      cases hs
      obtain ⟨p, hp, ws, e, hw, ht, hcur⟩ := h.alive i l el
      refine ⟨_, by unfold BSys.step; simp only; rw [hp, Option.bind_some, e, Option.bind_some], ?_⟩
      obtain ⟨g1, g2, g3, g4, g5⟩ := grow_spec (p := p) (ws := ws) hf
      have hsz : p.size = l.length := by rw [← ht, BVBuilder.length_toBools]
      have : upd L i (some l) = L := by
        funext j
        by_cases ej : j = i
        · rw [ej, upd_same, el]
        · rw [upd_other _ _ ej]
      rw [← this]
      refine put h hp g2 ⟨ws, g1, ?_, ?_, fun hz => ?_⟩
      · rw [g3]; exact hw
      · rw [g3]; exact ht
      · rw [g3] at hz; omega
    · rw [if_neg hm] at hs; cases hs
  | zeroExtend i n c =>
    obtain ⟨l, el, rfl⟩ := Option.map_eq_some_iff.1 hs
    obtain ⟨p, hp, hh⟩ := h.alive i l el
    obtain ⟨r, er, h1, h2⟩ := zeroExtend_ok hh n hf
    refine ⟨_, by unfold BSys.step; simp only; rw [hp, Option.bind_some, er, Option.bind_some], put h hp h1 h2⟩
  | set i pos b =>
    obtain ⟨l, el, hs⟩ := Option.bind_eq_some_iff.1 hs
    by_cases hm : pos < l.length
    · rw [if_pos hm] at hs
      cases hs
      obtain ⟨p, hp, ws, e, hw, ht, hcur⟩ := h.alive i l el
      have hsz : p.size = l.length := by rw [← ht, BVBuilder.length_toBools]
      obtain ⟨b', eb, hw', ht'⟩ := BVBuilder.set_wf hw (show pos < p.size by omega) b
      refine ⟨_, by unfold BSys.step; simp only; rw [hp, Option.bind_some, e, Option.bind_some, eb, Option.bind_some], ?_⟩
      have hsb : b'.size = p.size := by
        have := congrArg List.length ht'
        simpa [BVBuilder.length_toBools] using this
      have hlb : b'.bits.length = ws.length := by rw [hw'.len, hsb]; exact hw.len.symm
      have : upd S.obj i (some p) = S.obj := by
        funext j
        by_cases ej : j = i
        · rw [ej, upd_same, hp]
        · rw [upd_other _ _ ej]
      rw [← ht, ← ht']
      have hput := put h hp (m' := upd S.mem p.buf (some b'.bits)) (p' := p) ⟨.inl rfl, fun a h1 _ => upd_other _ _ h1⟩
        (holds_of (b := b') (upd_same _ _ _) hsb.symm hw' (by rw [hlb]; exact hcur))
      rw [this] at hput
      exact hput
    · rw [if_neg hm] at hs; cases hs
  | setBits i pos v len =>
    obtain ⟨l, el, hs⟩ := Option.bind_eq_some_iff.1 hs
    by_cases hm : len ≤ 64 ∧ v.toNat < 2 ^ len ∧ pos + len ≤ l.length
    · rw [if_pos hm] at hs
      cases hs
      obtain ⟨p, hp, ws, e, hw, ht, hcur⟩ := h.alive i l el
      have hsz : p.size = l.length := by rw [← ht, BVBuilder.length_toBools]
      obtain ⟨b', eb, hw', ht'⟩ := BVBuilder.setBits_wf hw hm.1 (show pos + len ≤ p.size by have := hm.2.2; omega) hm.2.1
      refine ⟨_, by unfold BSys.step; simp only; rw [hp, Option.bind_some, e, Option.bind_some, eb, Option.bind_some], ?_⟩
      have hsb : b'.size = p.size := by
        have := congrArg List.length ht'
        simp [BVBuilder.length_toBools, Spec.bitsOf] at this
        rw [this]
        have h3 := hm.2.2
        omega
      have hlb : b'.bits.length = ws.length := by rw [hw'.len, hsb]; exact hw.len.symm
      have : upd S.obj i (some p) = S.obj := by
        funext j
        by_cases ej : j = i
        · rw [ej, upd_same, hp]
        · rw [upd_other _ _ ej]
      rw [show (List.range len).map v.getLsbD = Spec.bitsOf v len from rfl, ← ht, ← ht']
      have hput := put h hp (m' := upd S.mem p.buf (some b'.bits)) (p' := p) ⟨.inl rfl, fun a h1 _ => upd_other _ _ h1⟩
        (holds_of (b := b') (upd_same _ _ _) hsb.symm hw' (by rw [hlb]; exact hcur))
      rw [this] at hput
      exact hput
    · rw [if_neg hm] at hs; cases hs
  | appendBits i v len c =>
    obtain ⟨l, el, hs⟩ := Option.bind_eq_some_iff.1 hs
    by_cases hm : len ≤ 64 ∧ v.toNat < 2 ^ len
    · rw [if_pos hm] at hs
      cases hs
      obtain ⟨p, hp, hh⟩ := h.alive i l el
      obtain ⟨r, er, h1, h2⟩ := appendBits_ok hh hm.1 hm.2 hf
      exact ⟨_, by unfold BSys.step; simp only; rw [hp, Option.bind_some, er, Option.bind_some], put h hp h1 h2⟩
    · rw [if_neg hm] at hs; cases hs
  | append i j c =>
    obtain ⟨l, el, hs⟩ := Option.bind_eq_some_iff.1 hs
    obtain ⟨l', el', hs⟩ := Option.bind_eq_some_iff.1 hs
    by_cases hm : i ≠ j
    · rw [if_pos hm] at hs
      cases hs
      obtain ⟨p, hp, hh⟩ := h.alive i l el
      obtain ⟨p', hp', hh'⟩ := h.alive j l' el'
      obtain ⟨r, er, h1, h2⟩ := append_ok hh hh' (fun e => hm (h.apart j i p' p hp' hp e).symm) hf
      refine ⟨_, ?_, put h hp h1 h2⟩
      unfold BSys.step; simp only
      rw [hp, Option.bind_some, hp', Option.bind_some, show (i == j) = false by simpa using hm, er, Option.bind_some]
    · rw [if_neg hm] at hs; cases hs
  | resize i n c =>
    obtain ⟨l, el, hs⟩ := Option.bind_eq_some_iff.1 hs
    by_cases hm : n % 64 = 0
    · rw [if_pos hm] at hs
      cases hs
      obtain ⟨p, hp, ws, e, hw, ht, hcur⟩ := h.alive i l el
      refine ⟨_, by unfold BSys.step; simp only; rw [hp, Option.bind_some, e, Option.bind_some], ?_⟩
      obtain ⟨g1, g2, g3, g4, g5⟩ := grow_spec (p := p) (ws := resizeWords ws (wordsFor n)) hf
      obtain ⟨hw', ht'⟩ := resize_wf ws p.size n hw hm
      rw [← ht, ← ht']
      exact put h hp (p' := { (p.grow S.mem (resizeWords ws (wordsFor n)) c).2 with size := n }) g2 ⟨_, g1, hw', rfl, fun hz => absurd hm hz⟩
    · rw [if_neg hm] at hs; cases hs
  | swap i j =>
    obtain ⟨l, el, hs⟩ := Option.bind_eq_some_iff.1 hs
    obtain ⟨l', el', hs⟩ := Option.bind_eq_some_iff.1 hs
    cases hs
    obtain ⟨p, hp, hh⟩ := h.alive i l el
    obtain ⟨p', hp', hh'⟩ := h.alive j l' el'
    refine ⟨_, by unfold BSys.step; simp only; rw [hp, Option.bind_some, hp', Option.bind_some], ?_⟩
    have key : ∀ a, (a = j ∧ upd (upd S.obj i (some p')) j (some p) a = some p ∧ upd (upd L i (some l')) j (some l) a = some l) ∨
        (a = i ∧ a ≠ j ∧ upd (upd S.obj i (some p')) j (some p) a = some p' ∧ upd (upd L i (some l')) j (some l) a = some l') ∨
        (a ≠ i ∧ a ≠ j ∧ upd (upd S.obj i (some p')) j (some p) a = S.obj a ∧ upd (upd L i (some l')) j (some l) a = L a) := by
      intro a
      by_cases ej : a = j
      · exact .inl ⟨ej, by rw [ej, upd_same], by rw [ej, upd_same]⟩
      · by_cases ei : a = i
        · refine .inr (.inl ⟨ei, ej, ?_, ?_⟩) <;> rw [upd_other _ _ ej, ei, upd_same]
        · refine .inr (.inr ⟨ei, ej, ?_, ?_⟩) <;> rw [upd_other _ _ ej, upd_other _ _ ei]
    refine ⟨?_, ?_, ?_⟩
    · intro a ha
      show upd (upd S.obj i (some p')) j (some p) a = none
      rcases key a with ⟨-, -, k⟩ | ⟨-, -, -, k⟩ | ⟨-, -, k1, k⟩
      · rw [k] at ha; cases ha
      · rw [k] at ha; cases ha
      · rw [k1]; exact h.dead a (k ▸ ha)
    · intro a la ha
      show ∃ p2, upd (upd S.obj i (some p')) j (some p) a = some p2 ∧ _
      rcases key a with ⟨-, k1, k⟩ | ⟨-, -, k1, k⟩ | ⟨-, -, k1, k⟩
      · rw [k] at ha; cases ha; exact ⟨p, k1, hh⟩
      · rw [k] at ha; cases ha; exact ⟨p', k1, hh'⟩
      · rw [k] at ha; rw [k1]; exact h.alive a la ha
    · intro a b pa pb ha hb hab
      replace ha : upd (upd S.obj i (some p')) j (some p) a = some pa := ha
      replace hb : upd (upd S.obj i (some p')) j (some p) b = some pb := hb
      rcases key a with ⟨ea, k1, -⟩ | ⟨ea, na, k1, -⟩ | ⟨na, na', k1, -⟩ <;>
        rcases key b with ⟨eb, k2, -⟩ | ⟨eb, nb, k2, -⟩ | ⟨nb, nb', k2, -⟩ <;> rw [k1] at ha <;> rw [k2] at hb
      · rw [ea, eb]
      · cases ha; cases hb; rw [ea, eb]; exact (h.apart i j _ _ hp hp' hab).symm
      · cases ha; exact absurd (h.apart i b _ _ hp hb hab).symm nb
      · cases ha; cases hb; rw [ea, eb]; exact (h.apart j i _ _ hp' hp hab).symm
      · rw [ea, eb]
      · cases ha; exact absurd (h.apart j b _ _ hp' hb hab).symm nb'
      · cases hb; exact absurd (h.apart a i _ _ ha hp hab) na
      · cases hb; exact absurd (h.apart a j _ _ ha hp' hab) na'
      · exact h.apart a b _ _ ha hb hab
  | copy i j q => cases hs

theorem reach_inv {S : BSys} {L : Nat → Option (List Bool)} (h : BReach S L) : Inv S L := by
  induction h with
  | start => exact start_inv
  | step op _ hf hs he ih =>
    obtain ⟨S2, e2, h2⟩ := step_ok ih hf hs
    rw [he] at e2; cases e2
    exact h2

end BuilderMemory

open BuilderMemory in
/-- C71: wherever the allocator moves the vectors, after any allowed operations each builder has the bits of its list, and the words of no two builders overlap. -/
theorem C71_builders_keep_their_bits {S : BSys} {L : Nat → Option (List Bool)} (h : BReach S L) {i : Nat} {l : List Bool} (hi : L i = some l) :
    (∃ p ws, S.obj i = some p ∧ S.mem p.buf = some ws ∧ p.size = l.length ∧ ws.length = (l.length + 63) / 64 ∧
      ∀ k, (ws.getD (k / 64) 0).getLsbD (k % 64) = l.getD k false) ∧
    ∀ j l' p p', L j = some l' → S.obj i = some p → S.obj j = some p' → i ≠ j → p.buf ≠ p'.buf := by
  have inv := reach_inv h
  obtain ⟨p, hp, ws, e, hw, rfl, -⟩ := inv.alive i l hi
  refine ⟨⟨p, ws, hp, e, (BVBuilder.length_toBools (plain ws p.size)).symm, ?_, fun k => ?_⟩, ?_⟩
  · rw [BVBuilder.length_toBools]; exact hw.len
  · show bitAt ws k = _
    by_cases hk : k < (plain ws p.size).toBools.length
    · rw [List.getD_eq_getElem?_getD, List.getElem?_eq_getElem hk, BVBuilder.getElem_toBools]; rfl
    · rw [List.getD_eq_getElem?_getD, List.getElem?_eq_none (by omega)]
      rw [BVBuilder.length_toBools] at hk
      exact hw.high k (by show p.size ≤ k; exact Nat.not_lt.1 hk)
  · intro j l' p1 p2 _ h1 h2 hij e2
    exact hij (inv.apart i j p1 p2 h1 h2 e2)

open BuilderMemory in
/-- C71: no allowed operation goes through a pointer to freed storage or out of the words. -/
theorem C71_operations_succeed {S : BSys} {L L' : Nat → Option (List Bool)} (h : BReach S L) {op : BOp} (hf : op.Fresh S) (hs : Spec.bitLists L op = some L') :
    ∃ S', S.step op = some S' ∧ BReach S' L' := by
  obtain ⟨S', e, -⟩ := step_ok (reach_inv h) hf hs
  exact ⟨S', e, .step op h hf hs e⟩

/-- A run of several operations. -/
def BSys.run (S : BSys) : List BOp → Option BSys
  | [] => some S
  | op :: ops => Option.bind (S.step op) fun S => S.run ops

/-- The words of the builder `i`. -/
def BSys.wordsOf (S : BSys) (i : Nat) : Option (List W) := Option.bind (S.obj i) fun p => S.mem p.buf

/-- A run in which a vector moves twice, an address is used again and two builders change places. -/
example : (BSys.empty.run [.new 0 10 0 false, .appendBits 0 5 3 (some 11), .new 1 10 60 true, .appendBits 1 0xff 8 (some 12), .swap 0 1, .appendBits 1 1 1 none,
    .append 1 0 (some 10), .appendBits 0 1 1 none]).map (fun S => (S.wordsOf 0, S.wordsOf 1)) =
    some (some [0xffffffffffffffff, 0x1f], some [0xfffffffffffffffd, 0xff]) := by decide +kernel

/-- Finding: `reserve` on a builder whose last word is not full leaves the pointer in the old storage if the vector moves: the next `append_bits` writes there. -/
theorem C71_reserve_defect : ∃ S, BSys.empty.run [.new 0 10 0 false, .appendBits 0 5 3 none, .reserve 0 (some 11)] = some S ∧
    S.step (.appendBits 0 1 1 none) = none := ⟨_, rfl, by decide +kernel⟩


/-- Finding: after `resize` the pointer is still at the old last word: a bit appended to a builder of 70 bits gets into its first word. -/
theorem C71_resize_defect : (BSys.empty.run [.new 0 10 0 false, .appendBits 0 5 3 none, .resize 0 70 none, .appendBits 0 1 1 none]).map (fun S =>
    (S.wordsOf 0, (S.obj 0).map (·.size))) = some (some [0x45, 0], some 71) := by decide +kernel

/-- Finding: `resize` to a smaller size does not clear the bits behind it: zeros that are appended are lost. -/
theorem C71_resize_smaller_defect : (BSys.empty.run [.new 0 10 8 true, .resize 0 4 none, .appendBits 0 0 4 none]).map (fun S =>
    (S.wordsOf 0, (S.obj 0).map (·.size))) = some (some [0xff], some 8) := by decide +kernel

/-- Finding: a copy (the implicit copy constructor) has the pointer of the original: a bit appended to the copy gets into the original and is missing from the
copy; and once the original is gone, the copy writes to freed storage. -/
theorem C71_copy_defect : (BSys.empty.run [.new 0 10 0 false, .appendBits 0 5 3 none, .copy 1 0 11, .appendBits 1 1 1 none]).map (fun S =>
      (S.wordsOf 0, S.wordsOf 1, (S.obj 1).map (·.size))) = some (some [0xd], some [0x5], some 4) ∧
    ∃ S, BSys.empty.run [.new 0 10 0 false, .appendBits 0 5 3 none, .copy 1 0 11, .destroy 0] = some S ∧ S.step (.appendBits 1 1 1 none) = none :=
  ⟨by decide +kernel, _, rfl, by decide +kernel⟩

/-- Finding: `b.append(b)` on a builder of full words copies its words, which have been extended, behind themselves: past the end of the vector. -/
theorem C71_self_append_defect : ∃ S, BSys.empty.run [.new 0 10 64 true] = some S ∧ S.step (.append 0 0 none) = none := ⟨_, rfl, by decide +kernel⟩

end Tongrams
