import Verif.BitIter

/-!
# include/sequences/darray.hpp
-/

namespace Tongrams
open BitVector

/-- the positions in `[c, N)` where `f` holds, in increasing order -/
def Spec.onesIn (f : Nat → Bool) (c N : Nat) : List Nat := (List.range' c (N - c)).filter f

theorem onesIn_nil {f : Nat → Bool} {c N : Nat} (h : ∀ i, c ≤ i → i < N → f i = false) : Spec.onesIn f c N = [] := by
  unfold Spec.onesIn
  rw [List.filter_eq_nil_iff]
  intro i hi
  rw [List.mem_range'_1] at hi
  rw [h i hi.1 (by omega)]; simp

theorem onesIn_first {f : Nat → Bool} {c p N : Nat} (hc : c ≤ p) (hp : p < N) (hf : f p = true)
    (hz : ∀ i, c ≤ i → i < p → f i = false) : Spec.onesIn f c N = p :: Spec.onesIn f (p + 1) N := by
  have hsplit : List.range' c (N - c) = List.range' c (p - c) ++ p :: List.range' (p + 1) (N - (p + 1)) := by
    rw [show N - c = (p - c) + (N - p) by omega, ← List.range'_append_1, show c + (p - c) = p by omega,
      show N - p = (N - (p + 1)) + 1 by omega, List.range'_succ]
  unfold Spec.onesIn
  rw [hsplit, List.filter_append, List.filter_cons_of_pos hf]
  have := onesIn_nil (f := f) (c := c) (N := p) hz
  unfold Spec.onesIn at this
  rw [this]; rfl

theorem onesIn_append {f : Nat → Bool} {c m N : Nat} (h1 : c ≤ m) (h2 : m ≤ N) :
    Spec.onesIn f c N = Spec.onesIn f c m ++ Spec.onesIn f m N := by
  unfold Spec.onesIn
  rw [show N - c = (m - c) + (N - m) by omega, ← List.range'_append_1, List.filter_append, show c + (m - c) = m by omega]

theorem onesIn_zero_succ (f : Nat → Bool) (n : Nat) :
    Spec.onesIn f 0 (n + 1) = Spec.onesIn f 0 n ++ (if f n then [n] else []) := by
  rw [onesIn_append (f := f) (show 0 ≤ n by omega) (show n ≤ n + 1 by omega)]
  congr 1
  unfold Spec.onesIn
  rw [show n + 1 - n = 1 by omega]
  simp only [List.range'_one]
  by_cases h : f n <;> simp [h]

theorem length_onesIn (f : Nat → Bool) (n : Nat) : (Spec.onesIn f 0 n).length = Spec.rank f n := by
  induction n with
  | zero => rfl
  | succ n ih => rw [onesIn_zero_succ, List.length_append, ih, Spec.rank_succ]; split <;> simp

/-- The `k`-th entry of the list of positions is the position of the `k`-th one. -/
theorem onesIn_getElem? (f : Nat → Bool) (n k p : Nat) :
    (Spec.onesIn f 0 n)[k]? = some p ↔ p < n ∧ Spec.IsSelect f k p := by
  induction n with
  | zero => simp [Spec.onesIn]
  | succ n ih =>
    rw [onesIn_zero_succ]
    have hl := length_onesIn f n
    by_cases hk : k < (Spec.onesIn f 0 n).length
    · rw [List.getElem?_append_left hk, ih]
      constructor
      · intro ⟨h1, h2⟩; exact ⟨by omega, h2⟩
      · intro ⟨h1, h2⟩
        refine ⟨?_, h2⟩
        apply Nat.lt_of_not_le; intro h3
        have : p = n := by omega
        subst this
        have := h2.2; omega
    · rw [List.getElem?_append_right (by omega)]
      constructor
      · intro h
        by_cases hf : f n
        · rw [if_pos hf] at h
          have h0 : k - (Spec.onesIn f 0 n).length = 0 := by
            apply Nat.eq_zero_of_not_pos; intro hpos
            rw [List.getElem?_eq_none (by simp; omega)] at h; exact absurd h (by simp)
          rw [h0] at h
          simp only [List.getElem?_cons_zero, Option.some.injEq] at h
          subst h
          exact ⟨by omega, hf, by omega⟩
        · rw [if_neg hf] at h; simp at h
      · intro ⟨h1, h2⟩
        have hp : p = n := by
          apply Nat.le_antisymm (by omega)
          apply Nat.le_of_not_lt; intro h3
          have := Spec.rank_lt_of_select h2 h3; omega
        subst hp
        rw [if_pos h2.1, show k - (Spec.onesIn f 0 p).length = 0 by have := h2.2; omega]; rfl

theorem onesIn_sorted (f : Nat → Bool) (c N : Nat) : (Spec.onesIn f c N).Pairwise (· < ·) :=
  List.Pairwise.filter _ List.pairwise_lt_range'

/-! ## The structure -/

/-- `darray`, members: darray.hpp:139-142. -/
structure DArray where
  positions : Nat
  blockInv : List Int
  subInv : List (BitVec 16)
  overflow : List Nat
deriving DecidableEq

/-- The local variables of the constructor, darray.hpp:15-18. -/
structure DState where
  positions : Nat
  cur : List Nat
  blockInv : List Int
  subInv : List (BitVec 16)
  overflow : List Nat

/-- `flush_cur_block`, darray.hpp:109-133; the loops `for (i = 0; i < size; i += 32)` are maps over the
multiples of 32. -/
def DState.flush (st : DState) : DState :=
  let front := st.cur.headD 0
  let back := st.cur.getLastD 0
  let subs := (List.range ((st.cur.length + 31) / 32))
  if back - front < 65536 then
    { st with
      blockInv := st.blockInv ++ [(front : Int)]
      subInv := st.subInv ++ subs.map (fun s => BitVec.ofNat 16 (st.cur.getD (32 * s) 0 - front))
      cur := [] }
  else
    { st with
      blockInv := st.blockInv ++ [-(st.overflow.length : Int) - 1]
      overflow := st.overflow ++ st.cur
      subInv := st.subInv ++ subs.map (fun _ => BitVec.allOnes 16)
      cur := [] }

/-- Body of the inner loop after a set bit was found, darray.hpp:28-37. -/
def DState.push (st : DState) (p : Nat) : DState :=
  let st := { st with cur := st.cur ++ [p], positions := st.positions + 1 }
  if st.cur.length = 1024 then st.flush else st

/-- The inner loop, darray.hpp:24-37: every round consumes at least one bit, so 65 rounds suffice
(`none` if they did not). -/
def DArray.wordLoop (size : Nat) : Nat → W → Nat → DState → Option DState
  | 0, _, _, _ => none
  | fuel + 1, curWord, curPos, st =>
    match lsb? curWord with
    | none => some st
    | some l =>
      let curPos := curPos + l
      let curWord := curWord >>> l
      if curPos ≥ size then some st
      else wordLoop size fuel (curWord >>> 1) (curPos + 1) (st.push curPos)

/-- The outer loop, darray.hpp:20-38, on the words from `wordIdx` on; `g` is the `WordGetter` (identity
for `darray1`, complement for `darray0`, darray.hpp:145-155). -/
def DArray.buildLoop (g : W → W) (size : Nat) : List W → Nat → DState → Option DState
  | [], _, st => some st
  | w :: ws, wordIdx, st => do
    let st ← wordLoop size 65 (g w) (wordIdx * 64) st
    buildLoop g size ws (wordIdx + 1) st

/-- The constructor, darray.hpp:13-46. -/
def DArray.build (g : W → W) (bv : BitVector) : Option DArray := do
  let st ← DArray.buildLoop g bv.size bv.bits 0 ⟨0, [], [], [], []⟩
  let st := if st.cur.length ≠ 0 then st.flush else st
  return { positions := st.positions, blockInv := st.blockInv, subInv := st.subInv, overflow := st.overflow }

/-- The loop of `select`, darray.hpp:77-82. -/
def DArray.selLoop (g : W → W) (ws : List W) : Nat → Nat → W → Nat → Option (Nat × W × Nat)
  | 0, _, _, _ => none
  | fuel + 1, wordIdx, word, reminder =>
    if reminder < popcount word then some (wordIdx, word, reminder)
    else
      match rd ws (wordIdx + 1) with
      | none => none
      | some w => selLoop g ws fuel (wordIdx + 1) (g w) (reminder - popcount word)

/-- darray.hpp:84. -/
def DArray.selFinish (r : Nat × W × Nat) : Option Nat := (selectInWord r.2.1 r.2.2).map (fun p => r.1 * 64 + p)

/-- The scan from `start_pos`, darray.hpp:72-84. -/
def DArray.scan (g : W → W) (ws : List W) (start reminder : Nat) : Option Nat :=
  (rd ws (start / 64)).bind fun w =>
    (DArray.selLoop g ws (ws.length + 1) (start / 64) (g w &&& UnaryIter.onesFrom (start % 64)) reminder).bind
      DArray.selFinish

/-- `select(bv, idx)`, darray.hpp:55-86. -/
def DArray.select (d : DArray) (g : W → W) (bv : BitVector) (idx : Nat) : Option Nat := do
  let blockPos ← d.blockInv[idx / 1024]?
  if blockPos < 0 then
    d.overflow[(-blockPos - 1).toNat + idx % 1024]?
  else do
    let sub ← d.subInv[idx / 32]?
    let start := blockPos.toNat + sub.toNat
    if idx % 32 = 0 then return start
    else DArray.scan g bv.bits start (idx % 32)

/-! ## Proofs -/

/-- A word getter seen as a predicate on bit positions. -/
def Getter (g : W → W) (ws : List W) (f : Nat → Bool) : Prop :=
  ∀ k j, j < 64 → (g (ws.getD k 0)).getLsbD j = f (k * 64 + j)

theorem getter_id (ws : List W) : Getter id ws (bitAt ws) := by
  intro k j hj; rw [id, getLsbD_getD _ _ _ hj, Nat.mul_comm]

theorem getter_not (ws : List W) : Getter (fun w => ~~~w) ws (fun i => !bitAt ws i) := by
  intro k j hj; rw [BitVec.getLsbD_not, getLsbD_getD _ _ _ hj, Nat.mul_comm]; simp [hj]

namespace DArray

theorem wordLoop_spec {f : Nat → Bool} {size B : Nat} :
    ∀ (fuel : Nat) (w : W) (c : Nat) (st : DState), c ≤ B → B < c + fuel → B ≤ c + 64 →
      (∀ j, j < B - c → w.getLsbD j = f (c + j)) → (∀ j, B - c ≤ j → w.getLsbD j = false) →
      wordLoop size fuel w c st = some ((Spec.onesIn f c (min B size)).foldl DState.push st) := by
  intro fuel
  induction fuel with
  | zero => intro w c st h1 h2; omega
  | succ fuel ih =>
    intro w c st h1 h2 h64 hb hz
    unfold wordLoop
    by_cases hw : w = 0#64
    · rw [lsb?_none.2 hw, onesIn_nil]
      · rfl
      · intro i hi1 hi2
        have := hb (i - c) (by omega)
        rw [hw, show c + (i - c) = i by omega] at this
        rw [← this]; simp
    · have hl : lsb? w = some (ctz64 w) := by simp [lsb?, hw]
      obtain ⟨hl64, hl1, hl0⟩ := ctz64_spec hw
      rw [hl]
      simp only
      generalize hlz : ctz64 w = l at *
      have hlB : l < B - c := by
        apply Nat.lt_of_not_le; intro h; rw [hz l h] at hl1; exact absurd hl1 (by simp)
      have hfp : f (c + l) = true := by rw [← hb l hlB]; exact hl1
      have hfz : ∀ i, c ≤ i → i < c + l → f i = false := by
        intro i hi1 hi2
        have := hb (i - c) (by omega)
        rw [show c + (i - c) = i by omega, hl0 _ (by omega)] at this
        exact this.symm
      by_cases hs : c + l ≥ size
      · rw [if_pos hs, onesIn_nil]
        · rfl
        · intro i hi1 hi2; exact hfz i hi1 (by omega)
      · rw [if_neg hs, ih _ _ _ (by omega) (by omega) (by omega)]
        · rw [onesIn_first (f := f) (c := c) (p := c + l) (by omega) (by omega) hfp hfz, List.foldl_cons]
        · intro j hj
          rw [BitVec.getLsbD_ushiftRight, BitVec.getLsbD_ushiftRight, hb _ (by omega)]; congr 1; omega
        · intro j hj
          rw [BitVec.getLsbD_ushiftRight, BitVec.getLsbD_ushiftRight, hz _ (by omega)]

theorem buildLoop_spec {g : W → W} {f : Nat → Bool} {size : Nat} {ws : List W} (hg : Getter g ws f) :
    ∀ (rest : List W) (k : Nat) (st : DState), ws.drop k = rest → k ≤ ws.length →
      buildLoop g size rest k st =
        some ((Spec.onesIn f (k * 64) (min (64 * ws.length) size)).foldl DState.push st) := by
  intro rest
  induction rest with
  | nil =>
    intro k st hd hk
    have : ws.length ≤ k := List.drop_eq_nil_iff.1 hd
    rw [onesIn_nil (by intro i h1 h2; omega)]; rfl
  | cons w rest ih =>
    intro k st hd hk
    have hlt : k < ws.length := by
      apply Nat.lt_of_not_le; intro h; rw [List.drop_eq_nil_of_le h] at hd; exact absurd hd (by simp)
    have hwk : w = ws.getD k 0 := by
      have := congrArg (fun l => l.head?) hd
      simp only [List.head?_drop, List.head?_cons] at this
      rw [List.getD_eq_getElem?_getD, this]; rfl
    unfold buildLoop
    rw [wordLoop_spec (f := f) (B := k * 64 + 64) 65 (g w) (k * 64) st (by omega) (by omega) (by omega)
      (by intro j hj; rw [hwk]; exact hg k j (by omega))
      (by intro j hj; exact BitVec.getLsbD_of_ge _ _ (by omega))]
    simp only [Option.bind_eq_bind, Option.bind_some]
    rw [ih (k + 1) _ (by rw [← List.drop_drop, hd]; rfl) (by omega), ← List.foldl_append]
    congr 2
    by_cases hs : size ≤ k * 64
    · rw [onesIn_nil (by intro i h1 h2; omega), onesIn_nil (by intro i h1 h2; omega), onesIn_nil (by intro i h1 h2; omega)]
      rfl
    · by_cases hs2 : size ≤ k * 64 + 64
      · rw [show min (k * 64 + 64) size = size by omega, show min (64 * ws.length) size = size by omega,
          onesIn_nil (c := (k + 1) * 64) (by intro i h1 h2; omega), List.append_nil]
      · rw [show min (k * 64 + 64) size = k * 64 + 64 by omega, show (k + 1) * 64 = k * 64 + 64 by omega]
        exact (onesIn_append (by omega) (by omega)).symm

/-- `idx`-th position can be found from the inventories. -/
def SelOk (P : List Nat) (blockInv : List Int) (subInv : List (BitVec 16)) (overflow : List Nat) (idx : Nat) : Prop :=
  (∃ fr : Nat, ∃ d : BitVec 16, blockInv[idx / 1024]? = some (fr : Int) ∧ subInv[idx / 32]? = some d ∧
      P[32 * (idx / 32)]? = some (fr + d.toNat)) ∨
  (∃ o : Nat, blockInv[idx / 1024]? = some (-(o : Int) - 1) ∧ ∃ p, P[idx]? = some p ∧ overflow[o + idx % 1024]? = some p)

theorem getElem?_append_some {α : Type} {l m : List α} {i : Nat} {x : α} (h : l[i]? = some x) : (l ++ m)[i]? = some x := by
  rw [List.getElem?_append_left (List.getElem?_eq_some_iff.1 h).1]; exact h

theorem SelOk.append {P P' : List Nat} {bi bi' : List Int} {si si' : List (BitVec 16)} {o o' : List Nat} {idx : Nat}
    (h : SelOk P bi si o idx) : SelOk (P ++ P') (bi ++ bi') (si ++ si') (o ++ o') idx := by
  rcases h with ⟨fr, d, h1, h2, h3⟩ | ⟨ov, h1, p, h2, h3⟩
  · exact Or.inl ⟨fr, d, getElem?_append_some h1, getElem?_append_some h2, getElem?_append_some h3⟩
  · exact Or.inr ⟨ov, getElem?_append_some h1, p, getElem?_append_some h2, getElem?_append_some h3⟩

/-- Invariant: the flushed positions are `F` (a whole number of blocks), the pending ones `st.cur`. -/
structure Inv (st : DState) (F : List Nat) : Prop where
  nb : F.length = 1024 * st.blockInv.length
  ns : st.subInv.length = 32 * st.blockInv.length
  pos : st.positions = F.length + st.cur.length
  cur : st.cur.length < 1024
  sel : ∀ idx, idx < F.length → SelOk F st.blockInv st.subInv st.overflow idx

theorem le_of_pairwise_getElem {l : List Nat} (h : l.Pairwise (· < ·)) {i j : Nat} (hij : i ≤ j) (hj : j < l.length) :
    l[i]'(by omega) ≤ l[j] := by
  rcases Nat.lt_or_eq_of_le hij with h1 | h1
  · exact Nat.le_of_lt (List.pairwise_iff_getElem.1 h i j (by omega) hj h1)
  · subst h1; exact Nat.le_refl _

theorem flush_spec {st : DState} {F : List Nat} (nb : F.length = 1024 * st.blockInv.length)
    (ns : st.subInv.length = 32 * st.blockInv.length) (hpos : st.positions = F.length + st.cur.length)
    (hne : st.cur ≠ []) (hle : st.cur.length ≤ 1024) (hsort : st.cur.Pairwise (· < ·))
    (sel : ∀ idx, idx < F.length → SelOk F st.blockInv st.subInv st.overflow idx) :
    st.flush.positions = st.positions ∧ st.flush.cur = [] ∧
    st.flush.blockInv.length = st.blockInv.length + 1 ∧
    st.flush.subInv.length = st.subInv.length + (st.cur.length + 31) / 32 ∧
    ∀ idx, idx < (F ++ st.cur).length →
      SelOk (F ++ st.cur) st.flush.blockInv st.flush.subInv st.flush.overflow idx := by
  have hlen : 0 < st.cur.length := List.length_pos_iff.2 hne
  have hfront : st.cur.headD 0 = st.cur[0] := by
    rw [List.headD_eq_head?_getD, List.head?_eq_getElem?, List.getElem?_eq_getElem hlen]; rfl
  have hback : st.cur.getLastD 0 = st.cur[st.cur.length - 1] := by
    rw [List.getLastD_eq_getLast?, List.getLast?_eq_getElem?, List.getElem?_eq_getElem (by omega)]; rfl
  unfold DState.flush
  simp only [hfront, hback]
  by_cases hd : st.cur[st.cur.length - 1] - st.cur[0] < 65536
  · rw [if_pos hd]
    refine ⟨rfl, rfl, by simp, by simp, ?_⟩
    intro idx hidx
    by_cases hi : idx < F.length
    · have := (sel idx hi).append (P' := st.cur) (bi' := [(st.cur[0] : Int)])
        (si' := (List.range ((st.cur.length + 31) / 32)).map (fun s => BitVec.ofNat 16 (st.cur.getD (32 * s) 0 - st.cur[0])))
        (o' := [])
      simpa using this
    · rw [List.length_append] at hidx
      have e1 : idx / 1024 = st.blockInv.length := by omega
      have e2 : idx / 32 = st.subInv.length + (idx - F.length) / 32 := by omega
      have hlt : 32 * ((idx - F.length) / 32) < st.cur.length := by omega
      have hmono := le_of_pairwise_getElem hsort (show 32 * ((idx - F.length) / 32) ≤ st.cur.length - 1 by omega) (by omega)
      have hmono0 := le_of_pairwise_getElem hsort (show 0 ≤ 32 * ((idx - F.length) / 32) by omega) hlt
      refine Or.inl ⟨st.cur[0], BitVec.ofNat 16 (st.cur.getD (32 * ((idx - F.length) / 32)) 0 - st.cur[0]), ?_, ?_, ?_⟩
      · rw [e1, List.getElem?_append_right (Nat.le_refl _)]; simp
      · rw [e2, List.getElem?_append_right (by omega), show st.subInv.length + (idx - F.length) / 32 - st.subInv.length =
          (idx - F.length) / 32 by omega, List.getElem?_map, List.getElem?_range (by omega)]; rfl
      · rw [List.getElem?_append_right (by omega), show 32 * (idx / 32) - F.length = 32 * ((idx - F.length) / 32) by omega,
          List.getElem?_eq_getElem hlt, BitVec.toNat_ofNat, List.getD_eq_getElem?_getD, List.getElem?_eq_getElem hlt,
          Option.getD_some, Nat.mod_eq_of_lt (by omega)]
        congr 1; omega
  · rw [if_neg hd]
    refine ⟨rfl, rfl, by simp, by simp, ?_⟩
    intro idx hidx
    by_cases hi : idx < F.length
    · exact (sel idx hi).append
    · rw [List.length_append] at hidx
      have e1 : idx / 1024 = st.blockInv.length := by omega
      refine Or.inr ⟨st.overflow.length, ?_, st.cur[idx - F.length], ?_, ?_⟩
      · rw [e1, List.getElem?_append_right (Nat.le_refl _)]; simp
      · rw [List.getElem?_append_right (by omega), List.getElem?_eq_getElem (by omega)]
      · rw [List.getElem?_append_right (by omega), show st.overflow.length + idx % 1024 - st.overflow.length = idx - F.length by omega,
          List.getElem?_eq_getElem (by omega)]

theorem push_spec {st : DState} {F : List Nat} (h : Inv st F) {p : Nat} (hs : (st.cur ++ [p]).Pairwise (· < ·)) :
    ∃ F', Inv (st.push p) F' ∧ F' ++ (st.push p).cur = F ++ st.cur ++ [p] := by
  have hcur := h.cur
  have hpos := h.pos
  unfold DState.push
  simp only
  by_cases hl : (st.cur ++ [p]).length = 1024
  · rw [if_pos hl]
    obtain ⟨f1, f2, f3, f4, f5⟩ := flush_spec (st := { st with cur := st.cur ++ [p], positions := st.positions + 1 }) (F := F)
      h.nb h.ns (by simp only [List.length_append, List.length_singleton]; omega) (by simp) (by simp only; omega) hs h.sel
    have hnb := h.nb
    have hns := h.ns
    simp only at f3 f4
    simp only [List.length_append, List.length_singleton] at hl
    refine ⟨F ++ (st.cur ++ [p]), ⟨?_, ?_, ?_, ?_, f5⟩, ?_⟩
    · rw [f3]; simp only [List.length_append, List.length_singleton]; omega
    · rw [f3, f4]; simp only [List.length_append, List.length_singleton]; omega
    · rw [f1, f2]; simp only [List.length_append, List.length_singleton, List.length_nil]; omega
    · rw [f2]; simp
    · rw [f2]; simp
  · rw [if_neg hl]
    refine ⟨F, ⟨h.nb, h.ns, ?_, ?_, h.sel⟩, ?_⟩
    · simp only [List.length_append, List.length_singleton]; omega
    · simp only [List.length_append, List.length_singleton] at hl ⊢; omega
    · simp

theorem foldl_push_spec (P : List Nat) : ∀ (st : DState) (F : List Nat), Inv st F → (F ++ st.cur ++ P).Pairwise (· < ·) →
    ∃ F', Inv (P.foldl DState.push st) F' ∧ F' ++ (P.foldl DState.push st).cur = F ++ st.cur ++ P := by
  induction P with
  | nil => intro st F h _; exact ⟨F, h, by simp⟩
  | cons p P ih =>
    intro st F h hs
    rw [List.foldl_cons]
    obtain ⟨F1, h1, e1⟩ := push_spec h (p := p) (by
      have : (st.cur ++ [p]).Sublist (F ++ st.cur ++ p :: P) := by
        rw [List.append_assoc]
        refine List.Sublist.trans ?_ (List.sublist_append_right F _)
        exact List.Sublist.append_left (by simp) _
      exact List.Pairwise.sublist this hs)
    obtain ⟨F2, h2, e2⟩ := ih _ F1 h1 (by rw [e1]; simpa using hs)
    exact ⟨F2, h2, by rw [e2, e1]; simp⟩

theorem selLoop_eq_skipLoop (g : W → W) (ws : List W) (k : Nat) :
    ∀ (fuel pos : Nat) (w : W) (sk : Nat), sk ≤ k →
      (selLoop g ws fuel (pos / 64) w (k - sk)) =
        (UnaryIter.skipLoop g ws k fuel pos w sk).map (fun r => (r.1 / 64, r.2.1, k - r.2.2)) := by
  intro fuel
  induction fuel with
  | zero => intro pos w sk _; rfl
  | succ fuel ih =>
    intro pos w sk hsk
    unfold selLoop UnaryIter.skipLoop
    by_cases hc : k - sk < popcount w
    · rw [if_pos hc, if_neg (by omega)]; rfl
    · rw [if_neg hc, if_pos (by omega), show (pos + 64) / 64 = pos / 64 + 1 by omega]
      cases rd ws (pos / 64 + 1) with
      | none => rfl
      | some w' =>
        simp only
        rw [← ih (pos + 64) (g w') (sk + popcount w) (by omega), show (pos + 64) / 64 = pos / 64 + 1 by omega,
          show k - sk - popcount w = k - (sk + popcount w) by omega]

/-- Scanning from a position finds the `k`-th one at or after it. -/
theorem scan_spec {g : W → W} {ws : List W} {f : Nat → Bool} (hg : Getter g ws f) {start q k : Nat}
    (hq : q < 64 * ws.length) (hsq : start ≤ q) (hf : f q = true) (hk : Spec.rank f q = Spec.rank f start + k) :
    scan g ws start k = some q := by
  unfold scan
  rw [rd_of_lt (by omega), Option.bind_some]
  obtain ⟨pos', buf', sk', e, hp, hsk, hsel, hlt, _⟩ := UnaryIter.skipLoop_spec (g := g) (f := f) 0 (fun w i _ hi => hg w i hi) k q hq hf start hk
    (ws.length + 1) start (g (ws.getD (start / 64) 0) &&& UnaryIter.onesFrom (start % 64)) 0 start (by omega) (by omega) (by omega) hsq
    (by intro j hj
        rw [BitVec.getLsbD_and, hg _ _ hj, UnaryIter.getLsbD_shl_ones]
        by_cases hc : start ≤ start / 64 * 64 + j
        · have : start % 64 ≤ j := by omega
          simp [hc, this, hj]
        · have : ¬ start % 64 ≤ j := by omega
          simp [hc, this])
    (by omega) (by omega)
  have := selLoop_eq_skipLoop g ws k (ws.length + 1) start
    (g (ws.getD (start / 64) 0) &&& UnaryIter.onesFrom (start % 64)) 0 (by omega)
  rw [Nat.sub_zero] at this
  rw [this, e, Option.map_some, Option.bind_some]
  obtain ⟨p, hp1, hp2, hp3⟩ := selectInWord_spec buf' (k - sk') hlt
  have hpq : p = q % 64 := Spec.select_unique hp3 hsel
  unfold selFinish
  rw [hp1, Option.map_some]
  congr 1; omega

theorem inv_init : Inv ⟨0, [], [], [], []⟩ [] := ⟨by simp, by simp, by simp, by simp, by simp⟩

/-- What the constructor establishes. -/
structure Built (d : DArray) (P : List Nat) : Prop where
  positions : d.positions = P.length
  sel : ∀ idx, idx < P.length → SelOk P d.blockInv d.subInv d.overflow idx

theorem build_spec {g : W → W} {bv : BitVector} {f : Nat → Bool} (hg : Getter g bv.bits f)
    (hs : bv.size ≤ 64 * bv.bits.length) :
    ∃ d, DArray.build g bv = some d ∧ d.Built (Spec.onesIn f 0 bv.size) := by
  unfold DArray.build
  rw [buildLoop_spec hg bv.bits 0 _ rfl (by omega), show min (64 * bv.bits.length) bv.size = bv.size by omega]
  simp only [Option.bind_eq_bind, Option.bind_some, Option.pure_def, Nat.zero_mul]
  obtain ⟨F, hi, hF⟩ := foldl_push_spec (Spec.onesIn f 0 bv.size) ⟨0, [], [], [], []⟩ [] inv_init
    (by simpa using onesIn_sorted f 0 bv.size)
  generalize (Spec.onesIn f 0 bv.size).foldl DState.push ⟨0, [], [], [], []⟩ = st at *
  simp only [List.nil_append, List.append_nil] at hF
  by_cases hc : st.cur.length ≠ 0
  · rw [if_pos hc]
    have hsort : st.cur.Pairwise (· < ·) :=
      List.Pairwise.sublist (List.sublist_append_right F _) (by rw [hF]; exact onesIn_sorted _ _ _)
    have hcl := hi.cur
    obtain ⟨f1, f2, f3, f4, f5⟩ := flush_spec hi.nb hi.ns hi.pos (by intro e; rw [e] at hc; simp at hc) (by omega) hsort hi.sel
    refine ⟨_, rfl, ⟨?_, ?_⟩⟩
    · simp only; rw [f1, hi.pos, ← hF, List.length_append]
    · rw [← hF]; exact f5
  · rw [if_neg hc]
    have h0 : st.cur = [] := List.eq_nil_of_length_eq_zero (Classical.not_not.1 hc)
    rw [h0, List.append_nil] at hF
    refine ⟨_, rfl, ⟨?_, ?_⟩⟩
    · simp only; rw [hi.pos, h0, ← hF]; rfl
    · rw [← hF]; exact hi.sel

/-- `select(idx)` is the position of the `idx`-th one. -/
theorem select_spec {g : W → W} {bv : BitVector} {f : Nat → Bool} (hg : Getter g bv.bits f)
    (hs : bv.size ≤ 64 * bv.bits.length) {d : DArray} (hd : d.Built (Spec.onesIn f 0 bv.size)) {idx q : Nat}
    (hq : q < bv.size) (hsel : Spec.IsSelect f idx q) : d.select g bv idx = some q := by
  have hP := (onesIn_getElem? f bv.size idx q).2 ⟨hq, hsel⟩
  have hlt : idx < (Spec.onesIn f 0 bv.size).length := (List.getElem?_eq_some_iff.1 hP).1
  unfold select
  rcases hd.sel idx hlt with ⟨fr, dd, h1, h2, h3⟩ | ⟨o, h1, p, h2, h3⟩
  · rw [h1]
    simp only [Option.bind_eq_bind, Option.bind_some]
    rw [if_neg (by omega), h2]
    simp only [Option.bind_some, Int.toNat_natCast]
    obtain ⟨hs1, hs2⟩ := (onesIn_getElem? f bv.size _ _).1 h3
    by_cases h0 : idx % 32 = 0
    · rw [if_pos h0]
      have e : 32 * (idx / 32) = idx := by omega
      rw [e] at hs2
      rw [Spec.select_unique hs2 hsel]; rfl
    · rw [if_neg h0]
      apply scan_spec hg (by omega) _ hsel.1
      · rw [hsel.2, hs2.2]; omega
      · apply Nat.le_of_not_lt; intro hlt2
        have := Spec.rank_lt_of_select hsel hlt2
        rw [hs2.2] at this; omega
  · rw [h1]
    simp only [Option.bind_eq_bind, Option.bind_some]
    rw [if_pos (by omega), show (-(-(o : Int) - 1) - 1).toNat = o by omega, h3]
    rw [h2] at hP; exact hP

end DArray
end Tongrams
