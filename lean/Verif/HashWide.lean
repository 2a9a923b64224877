import Verif.HashCompactVector

/-! # Pairs of a 32-bit key and a value of more than 32 bits, written in order (C09)

`set` of a `hash_compact_vector<uint32_t>` with values of 33..63 bits clears the first bits of the following entry
(`C09_32bit_wide_value_defect`). Written in increasing order of the entries, nothing is lost. -/

set_option linter.unusedSectionVars false

namespace Tongrams
namespace HCV

/-- What a write of a wide value leaves: its own pair, everything before it, and nothing after it that was not there. -/
def WideSet (c : HCV 32) (pos : Nat) (k : BitVec 32) (v : W) (ws : List (BitVec 32)) : Prop :=
  ws.length = c.bits.length ∧ ∀ q j, j < 32 →
    (q * 32 + j < pos → bitG ws q j = bitG c.bits q j) ∧
    (pos ≤ q * 32 + j → q * 32 + j < pos + 32 + c.width → bitG ws q j = pairBit pos k v (q * 32 + j)) ∧
    (pos + 32 + c.width ≤ q * 32 + j → bitG c.bits q j = false → bitG ws q j = false)

theorem wide_aligned {c : HCV 32} {pos : Nat} (hw : 32 < c.width) (hw2 : c.width < 64) (hs : pos % 32 = 0)
    (hm : ∀ j, j < 64 → c.mask.getLsbD j = decide (j < c.width))
    (hend : pos + 32 + c.width ≤ 32 * c.bits.length)
    (k : BitVec 32) {v : W} (hv : v.toNat < 2 ^ c.width) (i : Nat) (hi : (i * (32 + c.width)) % 2 ^ 32 = pos) :
    ∃ ws, c.set i k v = some { c with bits := ws } ∧ WideSet c pos k v ws := by
  unfold HCV.set
  simp only [hi, hs]
  rw [if_neg (by omega), wrG_of_lt (by omega)]
  simp only [Option.bind_eq_bind, Option.bind_some]
  rw [wrG_of_lt (by simp; omega)]
  simp only [Option.bind_some]
  rw [wrG_of_lt (by simp; omega)]
  simp only [Option.bind_some]
  rw [getDG_set_self _ _ _ (by simp; omega), List.set_set, getDG_set_ne _ _ _ _ (by omega), if_pos (show True ∧ c.width > 32 from ⟨trivial, hw⟩),
    wrG_of_lt (by simp; omega)]
  simp only [Option.bind_some]
  rw [wrG_of_lt (by simp; omega)]
  simp only [Option.bind_some]
  rw [getDG_set_self _ _ _ (by simp; omega), List.set_set, getDG_set_ne _ _ _ _ (by omega),
    getDG_set_ne _ _ _ _ (by omega)]
  refine ⟨_, rfl, by simp, ?_⟩
  intro q j hj
  have h64 : j < 64 := by omega
  unfold bitG
  by_cases hq2 : q = pos / 32 + 2
  · subst hq2
    rw [getDG_set_self _ _ _ (by simp; omega), BitVec.getLsbD_or, BitVec.getLsbD_and, BitVec.getLsbD_setWidth,
      BitVec.getLsbD_not, BitVec.getLsbD_ushiftRight, BitVec.getLsbD_setWidth, BitVec.getLsbD_ushiftRight,
      hm _ (by omega)]
    have hc : c.width - 32 + j < c.width := by omega
    refine ⟨fun h => by omega, fun _ h => ?_, fun h h0 => ?_⟩
    · unfold pairBit
      rw [if_neg (by omega)]
      have : (pos / 32 + 2) * 32 + j - pos - 32 = 32 + j := by omega
      simp [hj, this, hc]
    · rw [h0, bit_high_false hv (by omega)]; simp
  · rw [getDG_set_ne _ _ _ _ (fun e => hq2 e.symm)]
    by_cases hq1 : q = pos / 32 + 1
    · subst hq1
      rw [getDG_set_self _ _ _ (by simp; omega), BitVec.getLsbD_or, BitVec.getLsbD_and, BitVec.getLsbD_setWidth,
        BitVec.getLsbD_not, hm _ h64, BitVec.getLsbD_setWidth]
      refine ⟨fun h => by omega, fun _ h => ?_, fun h h0 => by omega⟩
      unfold pairBit
      rw [if_neg (by omega)]
      have : (pos / 32 + 1) * 32 + j - pos - 32 = j := by omega
      have hc : j < c.width := by omega
      simp [hj, this, hc]
    · rw [getDG_set_ne _ _ _ _ (fun e => hq1 e.symm)]
      by_cases hq0 : q = pos / 32
      · subst hq0
        rw [getDG_set_self _ _ _ (by omega)]
        refine ⟨fun h => by omega, fun _ h => ?_, fun h h0 => by omega⟩
        unfold pairBit
        rw [if_pos (by omega)]; congr 1; omega
      · rw [getDG_set_ne _ _ _ _ (fun e => hq0 e.symm)]
        exact ⟨fun _ => rfl, fun h1 h2 => by omega, fun _ h => h⟩

theorem wide_shift {c : HCV 32} {pos : Nat} (hw : 32 < c.width) (hw2 : c.width < 64) (hs : pos % 32 ≠ 0)
    (hm : ∀ j, j < 64 → c.mask.getLsbD j = decide (j < c.width))
    (hend : pos + 32 + c.width ≤ 32 * c.bits.length)
    (k : BitVec 32) {v : W} (hv : v.toNat < 2 ^ c.width) (i : Nat) (hi : (i * (32 + c.width)) % 2 ^ 32 = pos) :
    ∃ ws, c.set i k v = some { c with bits := ws } ∧ WideSet c pos k v ws := by
  have hsl := Nat.mod_lt pos (show 32 > 0 by omega)
  have hdm := Nat.div_add_mod pos 32
  generalize hblk : pos / 32 = b at *
  generalize hsh : pos % 32 = s at *
  have hmask : ∀ j, j < 32 → ((((1#32) <<< s) - 1#32).setWidth 64).getLsbD j = decide (j < s) := by
    intro j hj
    rw [BitVec.getLsbD_setWidth, getLsbD_lowmask hsl hj]
    have : j < 64 := by omega
    simp [this]
  have hvh : ∀ j, c.width ≤ j → v.getLsbD j = false := fun j hj => bit_high_false hv hj
  have X0 : ∀ (x : BitVec 32) j, j < 32 →
      ((x &&& ((((1#32) <<< s) - 1#32).setWidth 64).setWidth 32) ||| (k <<< s)).getLsbD j =
        if s ≤ j then k.getLsbD (j - s) else x.getLsbD j := by
    intro x j hj
    rw [BitVec.getLsbD_or, BitVec.getLsbD_and, BitVec.getLsbD_setWidth, hmask j hj, BitVec.getLsbD_shiftLeft]
    by_cases h : s ≤ j
    · have h' : ¬ j < s := by omega
      simp [h, h', hj]
    · have h' : j < s := by omega
      simp [h, h', hj]
  have X1 : ∀ (x : BitVec 32) j, j < 32 →
      (((((x &&& (~~~((((1#32) <<< s) - 1#32).setWidth 64)).setWidth 32) ||| (k >>> (32 - s)))
        &&& (~~~(c.mask <<< s)).setWidth 32) ||| (v <<< s).setWidth 32)).getLsbD j =
        if j < s then k.getLsbD (32 - s + j) else v.getLsbD (j - s) := by
    intro x j hj
    have h64 : j < 64 := by omega
    rw [BitVec.getLsbD_or, BitVec.getLsbD_and, BitVec.getLsbD_or, BitVec.getLsbD_and, BitVec.getLsbD_setWidth,
      BitVec.getLsbD_not, hmask j hj, BitVec.getLsbD_ushiftRight, BitVec.getLsbD_setWidth, BitVec.getLsbD_not,
      BitVec.getLsbD_shiftLeft, BitVec.getLsbD_setWidth, BitVec.getLsbD_shiftLeft]
    by_cases h : j < s
    · simp [h, hj, h64]
    · rw [hm (j - s) (by omega), BitVec.getLsbD_of_ge k _ (by omega)]
      have h3 : j - s < c.width := by omega
      simp [h, h3, hj, h64]
  have X2 : ∀ (x : BitVec 32) j, j < 32 →
      ((x &&& (~~~(c.mask >>> (32 - s))).setWidth 32) ||| (v >>> (32 - s)).setWidth 32).getLsbD j =
        if 32 - s + j < c.width then v.getLsbD (32 - s + j) else x.getLsbD j := by
    intro x j hj
    have h64 : j < 64 := by omega
    rw [BitVec.getLsbD_or, BitVec.getLsbD_and, BitVec.getLsbD_setWidth, BitVec.getLsbD_not,
      BitVec.getLsbD_ushiftRight, BitVec.getLsbD_setWidth, BitVec.getLsbD_ushiftRight]
    by_cases h : 32 - s + j < c.width
    · rw [hm _ (by omega)]; simp [h, hj, h64]
    · rw [hvh _ (by omega)]
      by_cases h' : 32 - s + j < 64
      · rw [hm _ h']; simp [h, hj, h64]
      · rw [BitVec.getLsbD_of_ge c.mask _ (by omega)]; simp [h, hj, h64]
  have X3 : ∀ (x : BitVec 32) j, j < 32 → c.width > 32 - s + 32 →
      ((x &&& (~~~(c.mask >>> (c.width - 32 - (32 - s)))).setWidth 32) ||| (v >>> (32 + (32 - s))).setWidth 32).getLsbD j =
        v.getLsbD (32 + (32 - s) + j) := by
    intro x j hj hb
    have h64 : j < 64 := by omega
    rw [BitVec.getLsbD_or, BitVec.getLsbD_and, BitVec.getLsbD_setWidth, BitVec.getLsbD_not,
      BitVec.getLsbD_ushiftRight, BitVec.getLsbD_setWidth, BitVec.getLsbD_ushiftRight, hm _ (by omega)]
    have h : c.width - 32 - (32 - s) + j < c.width := by omega
    simp [h, hj, h64]
  generalize hW0 : (c.bits.getD b 0 &&& ((((1#32) <<< s) - 1#32).setWidth 64).setWidth 32) ||| (k <<< s) = Y0 at *
  generalize hW1 : ((((c.bits.getD (b + 1) 0 &&& (~~~((((1#32) <<< s) - 1#32).setWidth 64)).setWidth 32) ||| (k >>> (32 - s)))
        &&& (~~~(c.mask <<< s)).setWidth 32) ||| (v <<< s).setWidth 32) = Y1 at *
  generalize hW2 : (c.bits.getD (b + 2) 0 &&& (~~~(c.mask >>> (32 - s))).setWidth 32) ||| (v >>> (32 - s)).setWidth 32 = Y2 at *
  have hY0 : ∀ j, j < 32 → Y0.getLsbD j = if s ≤ j then k.getLsbD (j - s) else (c.bits.getD b 0).getLsbD j := by
    rw [← hW0]; exact X0 _
  have hY1 : ∀ j, j < 32 → Y1.getLsbD j = if j < s then k.getLsbD (32 - s + j) else v.getLsbD (j - s) := by
    rw [← hW1]; exact X1 _
  have hY2 : ∀ j, j < 32 → Y2.getLsbD j = if 32 - s + j < c.width then v.getLsbD (32 - s + j) else (c.bits.getD (b + 2) 0).getLsbD j := by
    rw [← hW2]; exact X2 _
  clear X0 X1 X2
  have hstep : (do
      let ws ← wrG c.bits b (fun x => x &&& ((((1#32) <<< s) - 1#32).setWidth 64).setWidth 32)
      let ws ← wrG ws b (fun x => x ||| (k <<< s))
      let ws ← wrG ws (b + 1) (fun x => x &&& (~~~((((1#32) <<< s) - 1#32).setWidth 64)).setWidth 32)
      let ws ← wrG ws (b + 1) (fun x => x ||| (k >>> (32 - s)))
      let ws ← wrG ws (b + 1) (fun x => x &&& (~~~(c.mask <<< s)).setWidth 32)
      let ws ← wrG ws (b + 1) (fun x => x ||| (v <<< s).setWidth 32)
      let ws ← wrG ws (b + 2) (fun x => x &&& (~~~(c.mask >>> (32 - s))).setWidth 32)
      wrG ws (b + 2) (fun x => x ||| (v >>> (32 - s)).setWidth 32)) = some (((c.bits.set b Y0).set (b + 1) Y1).set (b + 2) Y2) := by
    simp only [Option.bind_eq_bind]
    rw [wrG_of_lt (by omega)]
    simp only [Option.bind_some]
    rw [wrG_of_lt (by simp; omega)]
    simp only [Option.bind_some]
    rw [getDG_set_self _ _ _ (by omega), List.set_set, hW0, wrG_of_lt (by simp; omega)]
    simp only [Option.bind_some]
    rw [wrG_of_lt (by simp; omega)]
    simp only [Option.bind_some]
    rw [getDG_set_self _ _ _ (by simp; omega), List.set_set, wrG_of_lt (by simp; omega)]
    simp only [Option.bind_some]
    rw [getDG_set_self _ _ _ (by simp; omega), List.set_set, wrG_of_lt (by simp; omega)]
    simp only [Option.bind_some]
    rw [getDG_set_self _ _ _ (by simp; omega), List.set_set, getDG_set_ne _ _ _ _ (by omega), hW1, wrG_of_lt (by simp; omega)]
    simp only [Option.bind_some]
    rw [wrG_of_lt (by simp; omega), getDG_set_self _ _ _ (by simp; omega), List.set_set, getDG_set_ne _ _ _ _ (by omega),
      getDG_set_ne _ _ _ _ (by omega), hW2]
  have hsetdef : c.set i k v = (do
      let ws ← (some (((c.bits.set b Y0).set (b + 1) Y1).set (b + 2) Y2))
      if 32 = 32 ∧ c.width > (32 - s) + 32 then do
        let ws ← wrG ws (b + 3) (fun x => x &&& (~~~(c.mask >>> (c.width - 32 - (32 - s)))).setWidth 32)
        let ws ← wrG ws (b + 3) (fun x => x ||| (v >>> (32 + (32 - s))).setWidth 32)
        return { c with bits := ws }
      else return { c with bits := ws }) := by
    rw [← hstep]
    unfold HCV.set
    simp only [hi, hblk, hsh]
    rw [if_pos hs]
    simp only [Option.bind_eq_bind, Option.bind_assoc]
    simp only [if_pos (show c.width > 32 - s by omega)]
  rw [hsetdef]
  clear hsetdef hstep
  simp only [Option.bind_eq_bind, Option.bind_some]
  have hbits : ∀ q j, j < 32 → bitG (((c.bits.set b Y0).set (b + 1) Y1).set (b + 2) Y2) q j =
      if q = b then Y0.getLsbD j else if q = b + 1 then Y1.getLsbD j else if q = b + 2 then Y2.getLsbD j else bitG c.bits q j := by
    intro q j _
    unfold bitG
    by_cases h2 : q = b + 2
    · subst h2
      rw [getDG_set_self _ _ _ (by simp; omega), if_neg (by omega), if_neg (by omega), if_pos rfl]
    · rw [getDG_set_ne _ _ _ _ (fun e => h2 e.symm)]
      by_cases h1 : q = b + 1
      · subst h1
        rw [getDG_set_self _ _ _ (by simp; omega), if_neg (by omega), if_pos rfl]
      · rw [getDG_set_ne _ _ _ _ (fun e => h1 e.symm)]
        by_cases h0 : q = b
        · subst h0; rw [getDG_set_self _ _ _ (by omega), if_pos rfl]
        · rw [getDG_set_ne _ _ _ _ (fun e => h0 e.symm), if_neg h0, if_neg h1, if_neg h2]
  have hthree : ∀ q j, j < 32 → q ≠ b + 3 ∨ ¬ c.width > 32 - s + 32 →
      (q * 32 + j < pos → bitG (((c.bits.set b Y0).set (b + 1) Y1).set (b + 2) Y2) q j = bitG c.bits q j) ∧
      (pos ≤ q * 32 + j → q * 32 + j < pos + 32 + c.width →
        bitG (((c.bits.set b Y0).set (b + 1) Y1).set (b + 2) Y2) q j = pairBit pos k v (q * 32 + j)) ∧
      (pos + 32 + c.width ≤ q * 32 + j → bitG c.bits q j = false → bitG (((c.bits.set b Y0).set (b + 1) Y1).set (b + 2) Y2) q j = false) := by
    intro q j hj hq3
    rw [hbits q j hj]
    by_cases h0 : q = b
    · subst h0
      rw [if_pos rfl, hY0 j hj]
      refine ⟨fun h => by rw [if_neg (by omega)]; rfl, fun h h' => ?_, fun h _ => by omega⟩
      rw [if_pos (by omega)]; unfold pairBit; rw [if_pos (by omega)]; congr 1; omega
    · rw [if_neg h0]
      by_cases h1 : q = b + 1
      · subst h1
        rw [if_pos rfl, hY1 j hj]
        refine ⟨fun h => by omega, fun h h' => ?_, fun h _ => by omega⟩
        unfold pairBit
        by_cases hc : j < s
        · rw [if_pos hc, if_pos (by omega)]; congr 1; omega
        · rw [if_neg hc, if_neg (by omega)]; congr 1; omega
      · rw [if_neg h1]
        by_cases h2 : q = b + 2
        · subst h2
          rw [if_pos rfl, hY2 j hj]
          refine ⟨fun h => by omega, fun h h' => ?_, fun h h0 => ?_⟩
          · rw [if_pos (by omega)]; unfold pairBit; rw [if_neg (by omega)]; congr 1; omega
          · rw [if_neg (by omega)]; exact h0
        · rw [if_neg h2]
          exact ⟨fun _ => rfl, fun h h' => by omega, fun _ h => h⟩
  by_cases hbig : c.width > 32 - s + 32
  · rw [if_pos ⟨trivial, hbig⟩, wrG_of_lt (by simp; omega)]
    simp only [Option.bind_some]
    rw [wrG_of_lt (by simp; omega)]
    simp only [Option.bind_some]
    rw [getDG_set_self _ _ _ (by simp; omega), List.set_set]
    refine ⟨_, rfl, by simp, ?_⟩
    intro q j hj
    by_cases hq : q = b + 3
    · subst hq
      unfold bitG
      rw [getDG_set_self _ _ _ (by simp; omega), X3 _ _ hj hbig]
      refine ⟨fun h => by omega, fun h h' => ?_, fun h h0 => ?_⟩
      · unfold pairBit; rw [if_neg (by omega)]; congr 1; omega
      · exact hvh _ (by omega)
    · have : ∀ Z, bitG ((((c.bits.set b Y0).set (b + 1) Y1).set (b + 2) Y2).set (b + 3) Z) q j =
          bitG (((c.bits.set b Y0).set (b + 1) Y1).set (b + 2) Y2) q j := by
        intro Z; unfold bitG; rw [getDG_set_ne _ _ _ _ (fun e => hq e.symm)]
      rw [this]
      exact hthree q j hj (.inl hq)
  · rw [if_neg fun h => hbig h.2]
    exact ⟨_, rfl, by simp, fun q j hj => hthree q j hj (.inr hbig)⟩

theorem wide_get {c : HCV 32} {pos : Nat} (hw : 32 < c.width) (hw2 : c.width < 64)
    (hm : ∀ j, j < 64 → c.mask.getLsbD j = decide (j < c.width))
    (hend : pos + 32 + c.width ≤ 32 * c.bits.length)
    (k : BitVec 32) {v : W} (hv : v.toNat < 2 ^ c.width) (i : Nat) (hi : (i * (32 + c.width)) % 2 ^ 32 = pos)
    (hbits : ∀ q j, j < 32 → pos ≤ q * 32 + j → q * 32 + j < pos + 32 + c.width →
      bitG c.bits q j = pairBit pos k v (q * 32 + j)) :
    c.get i = some (k, v) := by
  have hsl := Nat.mod_lt pos (show 32 > 0 by omega)
  have hdm := Nat.div_add_mod pos 32
  generalize hblk : pos / 32 = b at *
  generalize hsh : pos % 32 = s at *
  have w0 : ∀ j, j < 32 → s ≤ j → (c.bits.getD b 0).getLsbD j = k.getLsbD (j - s) := by
    intro j hj hc
    have := hbits b j hj (by omega) (by omega)
    unfold bitG pairBit at this
    rw [this, if_pos (by omega)]; congr 1; omega
  have w1k : ∀ j, j < s → (c.bits.getD (b + 1) 0).getLsbD j = k.getLsbD (32 - s + j) := by
    intro j hj
    have := hbits (b + 1) j (by omega) (by omega) (by omega)
    unfold bitG pairBit at this
    rw [this, if_pos (by omega)]; congr 1; omega
  have w1v : ∀ j, j < 32 → s ≤ j → (c.bits.getD (b + 1) 0).getLsbD j = v.getLsbD (j - s) := by
    intro j hj hc
    have := hbits (b + 1) j hj (by omega) (by omega)
    unfold bitG pairBit at this
    rw [this, if_neg (by omega)]; congr 1; omega
  have w2v : ∀ j, j < 32 → 32 - s + j < c.width → (c.bits.getD (b + 2) 0).getLsbD j = v.getLsbD (32 - s + j) := by
    intro j hj hc
    have := hbits (b + 2) j hj (by omega) (by omega)
    unfold bitG pairBit at this
    rw [this, if_neg (by omega)]; congr 1; omega
  have w3v : ∀ j, j < 32 → 64 - s + j < c.width → (c.bits.getD (b + 3) 0).getLsbD j = v.getLsbD (64 - s + j) := by
    intro j hj hc
    have := hbits (b + 3) j hj (by omega) (by omega)
    unfold bitG pairBit at this
    rw [this, if_neg (by omega)]; congr 1; omega
  have hvh : ∀ j, c.width ≤ j → v.getLsbD j = false := fun j hj => bit_high_false hv hj
  unfold HCV.get
  simp only [hi, hblk, hsh]
  by_cases hs : s ≠ 0
  · rw [if_pos hs, rdG_of_lt (by omega), rdG_of_lt (by omega)]
    simp only [Option.bind_eq_bind, Option.bind_some]
    have hk : (c.bits.getD b 0 >>> s) ||| (c.bits.getD (b + 1) 0 <<< (32 - s)) = k := by
      apply BitVec.eq_of_getLsbD_eq
      intro j hj
      rw [BitVec.getLsbD_or, BitVec.getLsbD_ushiftRight, BitVec.getLsbD_shiftLeft]
      by_cases hc : s + j < 32
      · have h1 : j < 32 - s := by omega
        rw [w0 _ hc (by omega)]
        have : s + j - s = j := by omega
        simp [h1, this]
      · have h1 : ¬ j < 32 - s := by omega
        rw [BitVec.getLsbD_of_ge _ _ (by omega), w1k _ (by omega)]
        have : 32 - s + (j - (32 - s)) = j := by omega
        simp [h1, this, hj]
    have hvlow : ∀ j, ((c.bits.getD (b + 1) 0 >>> s).setWidth 64 &&& c.mask).getLsbD j =
        (decide (j < 32 - s) && v.getLsbD j) := by
      intro j
      by_cases h64 : j < 64
      · rw [BitVec.getLsbD_and, BitVec.getLsbD_setWidth, BitVec.getLsbD_ushiftRight, hm j h64]
        by_cases hc : j < 32 - s
        · rw [w1v _ (by omega) (by omega)]
          have : s + j - s = j := by omega
          have hc2 : j < c.width := by omega
          simp [hc, hc2, h64, this]
        · rw [BitVec.getLsbD_of_ge _ _ (by omega)]; simp [hc]
      · rw [BitVec.getLsbD_of_ge _ _ (by omega), BitVec.getLsbD_of_ge v _ (by omega)]; simp
    have hvmid : ∀ j, j < 64 → (((c.bits.getD (b + 2) 0).setWidth 64 &&& ((1#64 <<< (c.width - (32 - s))) - 1#64)) <<< (32 - s)).getLsbD j =
        (decide (32 - s ≤ j ∧ j < 64 - s) && v.getLsbD j) := by
      intro j h64
      rw [BitVec.getLsbD_shiftLeft, BitVec.getLsbD_and, BitVec.getLsbD_setWidth, getLsbD_maskSub (by omega)]
      by_cases hc : j < 32 - s
      · have h' : ¬ 32 - s ≤ j := by omega
        simp [hc, h']
      · have hc' : 32 - s ≤ j := by omega
        by_cases hc2 : j < 64 - s
        · by_cases hc3 : j < c.width
          · rw [w2v _ (by omega) (by omega)]
            have e : 32 - s + (j - (32 - s)) = j := by omega
            have h1 : j - (32 - s) < c.width - (32 - s) := by omega
            have h2 : j - (32 - s) < 64 := by omega
            simp [hc, hc', hc2, h1, h2, h64, e]
          · have h1 : ¬ j - (32 - s) < c.width - (32 - s) := by omega
            rw [hvh _ (by omega)]; simp [h1]
        · rw [BitVec.getLsbD_of_ge (c.bits.getD (b + 2) 0) _ (by omega)]; simp [hc2]
    rw [hk, if_pos (show c.width > 32 - s by omega), rdG_of_lt (by omega)]
    simp only [Option.bind_some]
    by_cases hbig : c.width > 32 - s + 32
    · rw [if_pos ⟨trivial, hbig⟩, rdG_of_lt (by omega)]
      simp only [Option.bind_some, Option.pure_def]
      congr 2
      apply BitVec.eq_of_getLsbD_eq
      intro j h64
      rw [BitVec.getLsbD_or, BitVec.getLsbD_or, hvlow, hvmid j h64, BitVec.getLsbD_shiftLeft, BitVec.getLsbD_and, BitVec.getLsbD_setWidth,
        getLsbD_maskSub (by omega)]
      by_cases hc : j < 32 - s
      · have h1 : j < 32 + (32 - s) := by omega
        simp [hc, h1]
      · have hc' : 32 - s ≤ j := by omega
        by_cases hc2 : j < 64 - s
        · have h1 : j < 32 + (32 - s) := by omega
          simp [hc, hc', hc2, h1]
        · have h1 : ¬ j < 32 + (32 - s) := by omega
          by_cases hc3 : j < c.width
          · rw [w3v _ (by omega) (by omega)]
            have e : 64 - s + (j - (32 + (32 - s))) = j := by omega
            have h2 : j - (32 + (32 - s)) < c.width - 32 - (32 - s) := by omega
            have h3 : j - (32 + (32 - s)) < 64 := by omega
            simp [hc, hc2, h1, h2, h3, h64, e]
          · have h2 : ¬ j - (32 + (32 - s)) < c.width - 32 - (32 - s) := by omega
            rw [hvh _ (by omega)]; simp [h2]
    · rw [if_neg fun h => hbig h.2]
      simp only [Option.pure_def]
      congr 2
      apply BitVec.eq_of_getLsbD_eq
      intro j h64
      rw [BitVec.getLsbD_or, hvlow, hvmid j h64]
      by_cases hc3 : j < c.width
      · have h2 : j < 64 - s := by omega
        by_cases hc : j < 32 - s
        · simp [hc]
        · have hc' : 32 - s ≤ j := by omega
          simp [hc, hc', h2]
      · rw [hvh _ (by omega)]; simp
  · have h0 : s = 0 := by omega
    rw [if_neg hs, rdG_of_lt (by omega), rdG_of_lt (by omega)]
    simp only [Option.bind_eq_bind, Option.bind_some]
    rw [if_pos ⟨trivial, hw⟩, rdG_of_lt (by omega), if_neg (show ¬ c.width - 32 = 32 by omega)]
    simp only [Option.bind_some, Option.pure_def]
    subst h0
    congr 2
    · apply BitVec.eq_of_getLsbD_eq
      intro j hj
      exact w0 j hj (by omega)
    · apply BitVec.eq_of_getLsbD_eq
      intro j h64
      rw [BitVec.getLsbD_or, BitVec.getLsbD_and, BitVec.getLsbD_setWidth, BitVec.getLsbD_shiftLeft,
        BitVec.getLsbD_and, BitVec.getLsbD_setWidth, getLsbD_maskSub (by omega), hm j h64]
      by_cases hj : j < 32
      · rw [w1v j hj (by omega)]
        have : j < c.width := by omega
        simp [h64, hj, this]
      · rw [BitVec.getLsbD_of_ge (c.bits.getD (b + 1) 0) _ (by omega)]
        by_cases hc : j < c.width
        · rw [w2v _ (by omega) (by omega)]
          have e : 32 - 0 + (j - 32) = j := by omega
          have e1 : j - 32 < c.width - 32 := by omega
          have e2 : j - 32 < 64 := by omega
          simp only [e]
          simp [h64, hj, e1, e2]
        · have e1 : ¬ j - 32 < c.width - 32 := by omega
          rw [hvh _ (by omega)]; simp [e1]

/-- The entries are `es`, and nothing has been written after entry `m`. -/
structure Wide (c : HCV 32) (es : List (BitVec 32 × W)) (m : Nat) : Prop where
  w1 : 32 < c.width
  w2 : c.width < 64
  mask : ∀ j, j < 64 → c.mask.getLsbD j = decide (j < c.width)
  size : c.size = es.length
  len : c.size * (32 + c.width) ≤ 32 * c.bits.length
  pos : c.size * (32 + c.width) ≤ 2 ^ 32
  fits : ∀ e ∈ es, e.2.toNat < 2 ^ c.width
  bits : ∀ i (h : i < es.length), ∀ q j, j < 32 → i * (32 + c.width) ≤ q * 32 + j →
    q * 32 + j < i * (32 + c.width) + 32 + c.width →
    bitG c.bits q j = pairBit (i * (32 + c.width)) es[i].1 es[i].2 (q * 32 + j)
  rest : ∀ q j, j < 32 → m * (32 + c.width) + 32 + c.width ≤ q * 32 + j → bitG c.bits q j = false

theorem Wide.pos_eq {c : HCV 32} {es : List (BitVec 32 × W)} {m : Nat} (h : c.Wide es m) {i : Nat} (hi : i < es.length) :
    (i * (32 + c.width)) % 2 ^ 32 = i * (32 + c.width) ∧ i * (32 + c.width) + 32 + c.width ≤ 32 * c.bits.length := by
  have h1 : (i + 1) * (32 + c.width) ≤ c.size * (32 + c.width) := Nat.mul_le_mul_right _ (by rw [h.size]; omega)
  rw [Nat.succ_mul] at h1
  have := h.len
  have := h.pos
  have := h.w1
  exact ⟨Nat.mod_eq_of_lt (by omega), by omega⟩

theorem Wide.get {c : HCV 32} {es : List (BitVec 32 × W)} {m : Nat} (h : c.Wide es m) {i : Nat} (hi : i < es.length) :
    c.get i = some es[i] :=
  wide_get h.w1 h.w2 h.mask (h.pos_eq hi).2 _ (h.fits _ (List.getElem_mem _)) i (h.pos_eq hi).1 (h.bits i hi)

theorem wide_new {n w : Nat} (hw : 32 < w) (hw2 : w < 64) (hp : n * (32 + w) ≤ 2 ^ 32) :
    ∃ c : HCV 32, HCV.new 32 n w = some c ∧ c.Wide (List.replicate n (0, 0)) 0 ∧ c.width = w := by
  unfold HCV.new
  rw [if_neg (by omega), if_neg (by omega)]
  have hz : ∀ k j, bitG (List.replicate ((n * (32 + w) + (32 - 1)) / 32) (0 : BitVec 32)) k j = false := by
    intro k j
    simp only [bitG, List.getD_eq_getElem?_getD, List.getElem?_replicate]
    split <;> simp
  refine ⟨_, rfl, ⟨hw, hw2, ?_, by simp, ?_, hp, ?_, ?_, fun q j _ _ => hz q j⟩, rfl⟩
  · intro j hj
    simp only
    rw [if_neg (by omega), if_neg (by omega), BitVec.getLsbD_or, getLsbD_maskSub hw2]; simp
  · simp only [List.length_replicate]
    omega
  · intro x hx; rw [(List.mem_replicate.1 hx).2]; exact Nat.two_pow_pos _
  · intro i hi q j hj _ _
    simp only
    rw [hz]; unfold pairBit; simp

theorem Wide.set {c : HCV 32} {es : List (BitVec 32 × W)} {m : Nat} (h : c.Wide es m) {i : Nat} (hm : m ≤ i) (hi : i < es.length)
    (hz : ∀ t (ht : t < es.length), m < t → es[t] = (0, 0))
    (k : BitVec 32) {v : W} (hv : v.toNat < 2 ^ c.width) :
    ∃ c', c.set i k v = some c' ∧ c'.Wide (es.set i (k, v)) i ∧ c'.width = c.width := by
  obtain ⟨hp, hend⟩ := h.pos_eq hi
  obtain ⟨ws, e, hl, hb⟩ : ∃ ws, c.set i k v = some { c with bits := ws } ∧ WideSet c (i * (32 + c.width)) k v ws := by
    by_cases hs : i * (32 + c.width) % 32 = 0
    · exact wide_aligned h.w1 h.w2 hs h.mask hend k hv i hp
    · exact wide_shift h.w1 h.w2 hs h.mask hend k hv i hp
  have hmi := Nat.mul_le_mul_right (32 + c.width) hm
  refine ⟨_, e, ⟨h.w1, h.w2, h.mask, by simp [h.size], by simp only [hl]; exact h.len, h.pos, ?_, ?_, ?_⟩, rfl⟩
  · intro x hx
    rcases List.mem_or_eq_of_mem_set hx with h' | h'
    · exact h.fits x h'
    · subst h'; exact hv
  · intro t ht q j hj h1 h2
    rw [List.length_set] at ht
    simp only at h1 h2 ⊢
    obtain ⟨b1, b2, b3⟩ := hb q j hj
    simp only [List.getElem_set]
    by_cases hit : i = t
    · subst hit; rw [b2 h1 h2]; simp
    · simp only [hit, if_false]
      rcases Nat.lt_or_gt_of_ne hit with hlt | hgt
      · have := Nat.mul_le_mul_right (32 + c.width) (show i + 1 ≤ t from hlt)
        rw [Nat.succ_mul] at this
        rw [b3 (by omega) (h.rest q j hj (by omega)), hz t ht (by omega)]
        unfold pairBit; simp
      · have := Nat.mul_le_mul_right (32 + c.width) (show t + 1 ≤ i from hgt)
        rw [Nat.succ_mul] at this
        rw [b1 (by omega)]
        exact h.bits t ht q j hj h1 h2
  · intro q j hj h1
    simp only at h1 ⊢
    exact (hb q j hj).2.2 h1 (h.rest q j hj (by omega))

theorem Wide.setAll {n w : Nat} (ops : List (Nat × BitVec 32 × W)) :
    ∀ {c : HCV 32} {es : List (BitVec 32 × W)} {m : Nat}, c.Wide es m → es.length = n → c.width = w →
      (∀ t (ht : t < es.length), m < t → es[t] = (0, 0)) → (∀ o ∈ ops, m ≤ o.1) → ops.Pairwise (fun a b => a.1 ≤ b.1) →
      (∀ o ∈ ops, o.1 < n ∧ o.2.2.toNat < 2 ^ w) →
      ∃ c' m', c.setAll ops = some c' ∧ c'.Wide (ops.foldl (fun es o => es.set o.1 o.2) es) m' := by
  induction ops with
  | nil => intro c es m h _ hw _ _ _ _; exact ⟨c, m, rfl, h⟩
  | cons o ops ih =>
    intro c es m h hl hw hz hm hp ho
    obtain ⟨i, k, v⟩ := o
    obtain ⟨h1, h2⟩ := ho (i, k, v) (by simp)
    obtain ⟨p1, p2⟩ := List.pairwise_cons.1 hp
    have hmi : m ≤ i := hm (i, k, v) (by simp)
    simp only at h1 h2
    obtain ⟨c1, e1, g1, q1⟩ := h.set hmi (by omega) hz k (v := v) (by rw [hw]; exact h2)
    obtain ⟨c2, m2, e2, g2⟩ := ih g1 (by simpa using hl) (by rw [q1, hw]) (by
      intro t ht hlt
      rw [List.length_set] at ht
      rw [List.getElem_set_ne (by omega)]
      exact hz t ht (by omega)) p1 p2 (fun o h => ho o (by simp [h]))
    refine ⟨c2, m2, ?_, g2⟩
    simp only [HCV.setAll]; rw [e1, Option.bind_some, e2]

end HCV

/-- **C09** for 32-bit keys and values of 33 to 63 bits, where writing an entry clears the first bits of the next one: after `set(i, key, value)` calls in
order of the entries, however often each is written, `operator[](i)` returns the pair last written at `i` ((0,0) if none). -/
theorem C09_32bit_wide_values_in_order {n w : Nat} (hw : 32 < w) (hw2 : w < 64) (hsize : n * (32 + w) ≤ 2 ^ 32)
    (ops : List (Nat × BitVec 32 × W)) (hops : ∀ o ∈ ops, o.1 < n ∧ o.2.2.toNat < 2 ^ w) (hord : ops.Pairwise (fun a b => a.1 ≤ b.1)) :
    ∃ c c', HCV.new 32 n w = some c ∧ c.setAll ops = some c' ∧ c'.size = n ∧
      ∀ i, i < n → c'.get i = some ((ops.foldl (fun es o => es.set o.1 o.2) (List.replicate n (0, 0))).getD i (0, 0)) := by
  obtain ⟨c, e, hh, hcw⟩ := HCV.wide_new hw hw2 hsize
  obtain ⟨c', m', e', hh'⟩ := hh.setAll (n := n) (w := w) ops (by simp) hcw (by intro t ht _; simp) (by simp) hord hops
  have hlen : (ops.foldl (fun es o => es.set o.1 o.2) (List.replicate n ((0, 0) : BitVec 32 × W))).length = n := by
    have : ∀ (ops : List (Nat × BitVec 32 × W)) (es : List (BitVec 32 × W)),
        (ops.foldl (fun es o => es.set o.1 o.2) es).length = es.length := by
      intro ops; induction ops with
      | nil => intro es; rfl
      | cons o ops ih => intro es; rw [List.foldl_cons, ih]; simp
    rw [this]; simp
  refine ⟨c, c', e, e', by rw [hh'.size, hlen], fun i hi => ?_⟩
  rw [hh'.get (by omega), List.getD_eq_getElem?_getD, List.getElem?_eq_getElem (by omega), Option.getD_some]

/-- Three entries of 60 bits, the second written twice. -/
example := C09_32bit_wide_values_in_order (n := 3) (w := 60) (by decide) (by decide) (by decide)
  [(0, 7#32, 0xfffffffffffffff#64), (1, 9#32, 5#64), (1, 3#32, 0x800000000000001#64), (2, 0xffffffff#32, 0xfedcba987654321#64)] (by decide) (by decide)

end Tongrams
