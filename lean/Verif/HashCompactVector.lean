import Verif.BitVector

/-!
# include/vectors/hash_compact_vector.hpp

The element type `hash_t` of the storage is `uint32_t` (`B = 32`) or `uint64_t` (`B = 64`).
-/

namespace Tongrams

/-- `m_bits[i]` of a vector of `B`-bit words, as an rvalue. -/
def rdG {B : Nat} (ws : List (BitVec B)) (i : Nat) : Option (BitVec B) := ws[i]?

/-- `m_bits[i] = f(m_bits[i])` on a vector of `B`-bit words. -/
def wrG {B : Nat} (ws : List (BitVec B)) (i : Nat) (f : BitVec B → BitVec B) : Option (List (BitVec B)) :=
  match ws[i]? with
  | some w => some (ws.set i (f w))
  | none => none

/-- `hash_compact_vector::builder` and `hash_compact_vector` have the same members:
hash_compact_vector.hpp:104-107, 187-190. -/
structure HCV (B : Nat) where
  size : Nat
  width : Nat
  mask : W
  bits : List (BitVec B)
deriving DecidableEq

namespace HCV

/-- `builder(n, w)`, hash_compact_vector.hpp:19-36; `1 << 64` is undefined but its value is or-ed with
all ones (see `maskJ_eq`), so it is not modelled. `none`: `std::abort`. -/
def new (B n w : Nat) : Option (HCV B) :=
  if w = 0 then none
  else if w > 64 then none
  else some { size := n, width := w,
              mask := (if w = B ∨ w = 64 then BitVec.allOnes 64 else 0#64) |||
                (if w = 64 then BitVec.allOnes 64 else (1#64 <<< w) - 1#64),
              bits := List.replicate ((n * (B + w) + (B - 1)) / B) 0 }

/-- `set(i, k, v)`, hash_compact_vector.hpp:38-78. `pos` is a `hash_t`. -/
def set {B : Nat} (c : HCV B) (i : Nat) (k : BitVec B) (v : W) : Option (HCV B) := do
  let pos := (i * (B + c.width)) % 2 ^ B
  let block := pos / B
  let shift := pos % B
  if shift ≠ 0 then do
    let hashKeyMask : W := (((1#B) <<< shift) - 1#B).setWidth 64
    let ws ← wrG c.bits block (fun x => x &&& hashKeyMask.setWidth B)
    let ws ← wrG ws block (fun x => x ||| (k <<< shift))
    let resShift := B - shift
    let ws ← wrG ws (block + 1) (fun x => x &&& (~~~hashKeyMask).setWidth B)
    let ws ← wrG ws (block + 1) (fun x => x ||| (k >>> resShift))
    let ws ← wrG ws (block + 1) (fun x => x &&& (~~~(c.mask <<< shift)).setWidth B)
    let ws ← wrG ws (block + 1) (fun x => x ||| (v <<< shift).setWidth B)
    if c.width > resShift then do
      let ws ← wrG ws (block + 2) (fun x => x &&& (~~~(c.mask >>> resShift)).setWidth B)
      let ws ← wrG ws (block + 2) (fun x => x ||| (v >>> resShift).setWidth B)
      if B = 32 ∧ c.width > resShift + 32 then do
        let resShift2 := c.width - 32 - resShift
        let ws ← wrG ws (block + 3) (fun x => x &&& (~~~(c.mask >>> resShift2)).setWidth B)
        let ws ← wrG ws (block + 3) (fun x => x ||| (v >>> (32 + resShift)).setWidth B)
        return { c with bits := ws }
      else return { c with bits := ws }
    else return { c with bits := ws }
  else do
    let ws ← wrG c.bits block (fun _ => k)
    let ws ← wrG ws (block + 1) (fun x => x &&& (~~~c.mask).setWidth B)
    let ws ← wrG ws (block + 1) (fun x => x ||| v.setWidth B)
    if B = 32 ∧ c.width > 32 then do
      let resShift := c.width - 32
      let ws ← wrG ws (block + 2) (fun x => x &&& (~~~(c.mask >>> resShift)).setWidth B)
      let ws ← wrG ws (block + 2) (fun x => x ||| (v >>> 32).setWidth B)
      return { c with bits := ws }
    else return { c with bits := ws }

/-- `operator[](i)`, hash_compact_vector.hpp:124-158. -/
def get {B : Nat} (c : HCV B) (i : Nat) : Option (BitVec B × W) := do
  let pos := (i * (B + c.width)) % 2 ^ B
  let block := pos / B
  let shift := pos % B
  if shift ≠ 0 then do
    let resShift := B - shift
    let w0 ← rdG c.bits block
    let w1 ← rdG c.bits (block + 1)
    let k := (w0 >>> shift) ||| (w1 <<< resShift)
    let v := (w1 >>> shift).setWidth 64 &&& c.mask
    if c.width > resShift then do
      let resShift2 := c.width - resShift
      let w2 ← rdG c.bits (block + 2)
      let v := v ||| ((w2.setWidth 64 &&& ((1#64 <<< resShift2) - 1#64)) <<< resShift)
      if B = 32 ∧ c.width > resShift + 32 then do
        let resShift2 := c.width - 32 - resShift
        let w3 ← rdG c.bits (block + 3)
        return (k, v ||| ((w3.setWidth 64 &&& ((1#64 <<< resShift2) - 1#64)) <<< (32 + resShift)))
      else return (k, v)
    else return (k, v)
  else do
    let k ← rdG c.bits block
    let w1 ← rdG c.bits (block + 1)
    let v := w1.setWidth 64 &&& c.mask
    if B = 32 ∧ c.width > 32 then do
      let resShift := c.width - 32
      let w2 ← rdG c.bits (block + 2)
      let m : W := if resShift = 32 then (1#64 <<< 32) - 1#64 else (1#64 <<< resShift) - 1#64
      return (k, v ||| ((w2.setWidth 64 &&& m) <<< 32))
    else return (k, v)

end HCV

/-! ## Proofs -/

/-- bit `j` of word `k` -/
def bitG {B : Nat} (ws : List (BitVec B)) (k j : Nat) : Bool := (ws.getD k 0).getLsbD j

theorem rdG_of_lt {B : Nat} {ws : List (BitVec B)} {i : Nat} (h : i < ws.length) : rdG ws i = some (ws.getD i 0) := by
  simp [rdG, h]

theorem wrG_of_lt {B : Nat} {ws : List (BitVec B)} {i : Nat} (h : i < ws.length) (f : BitVec B → BitVec B) :
    wrG ws i f = some (ws.set i (f (ws.getD i 0))) := by
  simp [wrG, h]

theorem getDG_set_self {B : Nat} (ws : List (BitVec B)) (k : Nat) (x : BitVec B) (hk : k < ws.length) :
    (ws.set k x).getD k 0 = x := by
  simp [hk]

theorem getDG_set_ne {B : Nat} (ws : List (BitVec B)) (k k' : Nat) (x : BitVec B) (h : k ≠ k') :
    (ws.set k x).getD k' 0 = ws.getD k' 0 := by
  simp [h]

theorem wrG_twice {B : Nat} {ws : List (BitVec B)} {i : Nat} (f g : BitVec B → BitVec B) :
    (wrG ws i f).bind (fun ws => wrG ws i g) = wrG ws i (fun x => g (f x)) := by
  by_cases h : i < ws.length
  · rw [wrG_of_lt h, Option.bind_some, wrG_of_lt (by simpa using h), wrG_of_lt h, getDG_set_self _ _ _ h, List.set_set]
  · simp [wrG, h]

/-- The bits of the stored pair: `B` bits of key at bit position `pos`, then `w` bits of value. -/
def pairBit {B : Nat} (pos : Nat) (k : BitVec B) (v : W) (p : Nat) : Bool :=
  if p < pos + B then k.getLsbD (p - pos) else v.getLsbD (p - pos - B)

theorem getLsbD_lowmask {B s j : Nat} (hs : s < B) (hj : j < B) : (((1#B) <<< s) - 1#B).getLsbD j = decide (j < s) := by
  have h1 : (1#B <<< s) - 1#B = BitVec.ofNat B (2 ^ s - 1) := by
    apply BitVec.eq_of_toNat_eq
    have hlt : 2 ^ s < 2 ^ B := Nat.pow_lt_pow_right (by omega) hs
    have hB : 1 < 2 ^ B := by have := Nat.two_pow_pos s; omega
    have hp := Nat.two_pow_pos s
    rw [BitVec.toNat_sub, BitVec.toNat_shiftLeft, BitVec.toNat_ofNat, BitVec.toNat_ofNat, Nat.mod_eq_of_lt hB,
      Nat.one_shiftLeft, Nat.mod_eq_of_lt hlt, Nat.mod_eq_of_lt (show 2 ^ s - 1 < 2 ^ B by omega)]
    rw [show 2 ^ B - 1 + 2 ^ s = 2 ^ s - 1 + 2 ^ B by omega, Nat.add_mod_right, Nat.mod_eq_of_lt (by omega)]
  rw [h1, BitVec.getLsbD_ofNat, Nat.testBit_two_pow_sub_one]
  simp [hj]

namespace HCV
variable {B : Nat}

/-- The layout is consistent: storage for `size` pairs, mask = low `width` ones as far as it matters. -/
structure Ok (c : HCV B) : Prop where
  hB : B = 64 ∧ c.width ≤ 64 ∨ B = 32 ∧ (c.width ≤ 32 ∨ c.width = 64)
  w1 : 1 ≤ c.width
  len : c.size * (B + c.width) ≤ B * c.bits.length
  pos : c.size * (B + c.width) ≤ 2 ^ B
  mask : ∀ j, j < 64 → (c.width ≠ B ∧ c.width ≠ 64 → c.mask.getLsbD j = decide (j < c.width)) ∧
    (c.width = B ∨ c.width = 64 → c.mask.getLsbD j = true)

theorem new_ok {n w : Nat} (hB : B = 64 ∧ w ≤ 64 ∨ B = 32 ∧ (w ≤ 32 ∨ w = 64)) (h1 : 1 ≤ w)
    (hp : n * (B + w) ≤ 2 ^ B) :
    ∃ c : HCV B, HCV.new B n w = some c ∧ c.Ok ∧ c.size = n ∧ c.width = w ∧ ∀ k j, bitG c.bits k j = false := by
  unfold HCV.new
  rw [if_neg (by omega), if_neg (by omega)]
  refine ⟨_, rfl, ⟨hB, h1, ?_, hp, ?_⟩, rfl, rfl, ?_⟩
  · simp only [List.length_replicate]
    have hb : 0 < B := by omega
    have := Nat.div_add_mod (n * (B + w) + (B - 1)) B
    have := Nat.mod_lt (n * (B + w) + (B - 1)) hb
    omega
  · intro j hj
    simp only
    have hor : (if w = 64 then BitVec.allOnes 64 else (1#64 <<< w) - 1#64) = maskOf w := rfl
    rw [hor]
    have h64 : w ≤ 64 := by omega
    constructor
    · intro ⟨a, b⟩
      rw [if_neg (by omega), BitVec.getLsbD_or, getLsbD_maskOf h64]; simp
    · intro a
      rw [if_pos a, BitVec.getLsbD_or, BitVec.getLsbD_allOnes]; simp [hj]
  · intro k j
    simp only [bitG, List.getD_eq_getElem?_getD, List.getElem?_replicate]
    split <;> simp

/-- position of entry `i`: nothing is truncated -/
theorem Ok.pos_eq {c : HCV B} (h : c.Ok) {i : Nat} (hi : i < c.size) :
    (i * (B + c.width)) % 2 ^ B = i * (B + c.width) ∧
      i * (B + c.width) + B + c.width ≤ B * c.bits.length := by
  have h1 : (i + 1) * (B + c.width) ≤ c.size * (B + c.width) := Nat.mul_le_mul_right _ hi
  rw [Nat.succ_mul] at h1
  have := h.len
  have := h.pos
  have := h.w1
  exact ⟨Nat.mod_eq_of_lt (by omega), by omega⟩

/-- Unaligned write: three consecutive words. -/
theorem set_shift {c : HCV B} {pos : Nat} (hw : c.width < B) (hB : B ≤ 64) (hs : pos % B ≠ 0)
    (hm : ∀ j, j < 64 → c.mask.getLsbD j = decide (j < c.width))
    (hend : pos + B + c.width ≤ B * c.bits.length) (hw1 : 1 ≤ c.width)
    (k : BitVec B) {v : W} (hv : v.toNat < 2 ^ c.width) (i : Nat) (hi : (i * (B + c.width)) % 2 ^ B = pos)
    (_h32 : B = 32 ∨ B = 64) :
    ∃ ws, c.set i k v = some { c with bits := ws } ∧ ws.length = c.bits.length ∧
      ∀ q j, j < B → bitG ws q j =
        if pos ≤ q * B + j ∧ q * B + j < pos + B + c.width then pairBit pos k v (q * B + j) else bitG c.bits q j := by
  have hb0 : 0 < B := by omega
  have hdm := Nat.div_add_mod pos B
  have hsl := Nat.mod_lt pos hb0
  generalize hblk : pos / B = b at *
  generalize hsh : pos % B = s at *
  have hlen1 : b + 1 < c.bits.length := by
    apply Nat.lt_of_not_le; intro hle
    have := Nat.mul_le_mul_left B hle
    rw [Nat.mul_add] at this; omega
  have hlen2 : c.width > B - s → b + 2 < c.bits.length := by
    intro hgt
    apply Nat.lt_of_not_le; intro hle
    have := Nat.mul_le_mul_left B hle
    rw [Nat.mul_add] at this; omega
  have hmask : ∀ j, j < B → ((((1#B) <<< s) - 1#B).setWidth 64).getLsbD j = decide (j < s) := by
    intro j hj
    rw [BitVec.getLsbD_setWidth, getLsbD_lowmask hsl hj]
    have : j < 64 := by omega
    simp [this]
  have hvh : ∀ j, c.width ≤ j → v.getLsbD j = false := fun j hj => bit_high_false hv hj
  -- bits of the three words
  have X0 : ∀ (x : BitVec B) j, j < B →
      ((x &&& ((((1#B) <<< s) - 1#B).setWidth 64).setWidth B) ||| (k <<< s)).getLsbD j =
        if s ≤ j then k.getLsbD (j - s) else x.getLsbD j := by
    intro x j hj
    rw [BitVec.getLsbD_or, BitVec.getLsbD_and, BitVec.getLsbD_setWidth, hmask j hj, BitVec.getLsbD_shiftLeft]
    by_cases h : s ≤ j
    · have h' : ¬ j < s := by omega
      simp [h, h', hj]
    · have h' : j < s := by omega
      simp [h, h', hj]
  have X1 : ∀ (x : BitVec B) j, j < B →
      (((((x &&& (~~~((((1#B) <<< s) - 1#B).setWidth 64)).setWidth B) ||| (k >>> (B - s)))
        &&& (~~~(c.mask <<< s)).setWidth B) ||| (v <<< s).setWidth B)).getLsbD j =
        if j < s then k.getLsbD (B - s + j) else if j < s + c.width then v.getLsbD (j - s) else x.getLsbD j := by
    intro x j hj
    have h64 : j < 64 := by omega
    rw [BitVec.getLsbD_or, BitVec.getLsbD_and, BitVec.getLsbD_or, BitVec.getLsbD_and, BitVec.getLsbD_setWidth,
      BitVec.getLsbD_not, hmask j hj, BitVec.getLsbD_ushiftRight, BitVec.getLsbD_setWidth, BitVec.getLsbD_not,
      BitVec.getLsbD_shiftLeft, BitVec.getLsbD_setWidth, BitVec.getLsbD_shiftLeft]
    by_cases h : j < s
    · simp [h, hj, h64]
    · rw [hm (j - s) (by omega), BitVec.getLsbD_of_ge k _ (by omega)]
      by_cases h2 : j < s + c.width
      · have h3 : j - s < c.width := by omega
        simp [h, h2, h3, hj, h64]
      · have h3 : ¬ j - s < c.width := by omega
        rw [hvh (j - s) (by omega)]
        simp [h, h2, h3, hj, h64]
  have X2 : ∀ (x : BitVec B) j, j < B →
      ((x &&& (~~~(c.mask >>> (B - s))).setWidth B) ||| (v >>> (B - s)).setWidth B).getLsbD j =
        if B - s + j < c.width then v.getLsbD (B - s + j) else x.getLsbD j := by
    intro x j hj
    have h64 : j < 64 := by omega
    rw [BitVec.getLsbD_or, BitVec.getLsbD_and, BitVec.getLsbD_setWidth, BitVec.getLsbD_not,
      BitVec.getLsbD_ushiftRight, BitVec.getLsbD_setWidth, BitVec.getLsbD_ushiftRight]
    by_cases h : B - s + j < c.width
    · rw [hm _ (by omega)]; simp [h, hj, h64]
    · rw [hvh _ (by omega)]
      by_cases h' : B - s + j < 64
      · rw [hm _ h']; simp [h, hj, h64]
      · rw [BitVec.getLsbD_of_ge c.mask _ (by omega)]; simp [h, hj, h64]
  have hB1 : (b + 1) * B = B * b + B := by rw [Nat.succ_mul, Nat.mul_comm]
  have hB2 : (b + 2) * B = B * b + 2 * B := by rw [Nat.add_mul, Nat.mul_comm]
  have hB0 : b * B = B * b := Nat.mul_comm _ _
  have hlow : ∀ q, q < b → q * B + B ≤ B * b := by
    intro q hq
    have := Nat.mul_le_mul_right B (show q + 1 ≤ b from hq)
    rw [Nat.succ_mul, hB0] at this; exact this
  have hhigh : ∀ q, b + 2 < q → B * b + 3 * B ≤ q * B := by
    intro q hq
    have := Nat.mul_le_mul_right B (show b + 3 ≤ q from hq)
    rw [Nat.add_mul, hB0] at this; exact this
  generalize hW0 : (c.bits.getD b 0 &&& ((((1#B) <<< s) - 1#B).setWidth 64).setWidth B) ||| (k <<< s) = Y0 at *
  generalize hW1 : ((((c.bits.getD (b + 1) 0 &&& (~~~((((1#B) <<< s) - 1#B).setWidth 64)).setWidth B) ||| (k >>> (B - s)))
        &&& (~~~(c.mask <<< s)).setWidth B) ||| (v <<< s).setWidth B) = Y1 at *
  have hY0 : ∀ j, j < B → Y0.getLsbD j = if s ≤ j then k.getLsbD (j - s) else (c.bits.getD b 0).getLsbD j := by
    rw [← hW0]; exact X0 _
  have hY1 : ∀ j, j < B → Y1.getLsbD j = if j < s then k.getLsbD (B - s + j)
      else if j < s + c.width then v.getLsbD (j - s) else (c.bits.getD (b + 1) 0).getLsbD j := by
    rw [← hW1]; exact X1 _
  have hstep : (do
      let ws ← wrG c.bits b (fun x => x &&& ((((1#B) <<< s) - 1#B).setWidth 64).setWidth B)
      let ws ← wrG ws b (fun x => x ||| (k <<< s))
      let ws ← wrG ws (b + 1) (fun x => x &&& (~~~((((1#B) <<< s) - 1#B).setWidth 64)).setWidth B)
      let ws ← wrG ws (b + 1) (fun x => x ||| (k >>> (B - s)))
      let ws ← wrG ws (b + 1) (fun x => x &&& (~~~(c.mask <<< s)).setWidth B)
      wrG ws (b + 1) (fun x => x ||| (v <<< s).setWidth B)) = some ((c.bits.set b Y0).set (b + 1) Y1) := by
    simp only [Option.bind_eq_bind]
    rw [wrG_of_lt (by omega)]
    simp only [Option.bind_some]
    rw [wrG_of_lt (by simp; omega)]
    simp only [Option.bind_some]
    rw [getDG_set_self _ _ _ (by omega), List.set_set, hW0, wrG_of_lt (by simp; omega)]
    simp only [Option.bind_some]
    rw [wrG_of_lt (by simp; omega)]
    simp only [Option.bind_some]
    rw [getDG_set_self _ _ _ (by simp; omega), List.set_set, wrG_of_lt (by simp; omega)]
    simp only [Option.bind_some]
    rw [getDG_set_self _ _ _ (by simp; omega), List.set_set, wrG_of_lt (by simp; omega)]
    rw [getDG_set_self _ _ _ (by simp; omega), List.set_set, getDG_set_ne _ _ _ _ (by omega), hW1]
  have hsetdef : c.set i k v = (do
      let ws ← (some ((c.bits.set b Y0).set (b + 1) Y1))
      if c.width > B - s then do
        let ws ← wrG ws (b + 2) (fun x => x &&& (~~~(c.mask >>> (B - s))).setWidth B)
        let ws ← wrG ws (b + 2) (fun x => x ||| (v >>> (B - s)).setWidth B)
        if B = 32 ∧ c.width > (B - s) + 32 then do
          let ws ← wrG ws (b + 3) (fun x => x &&& (~~~(c.mask >>> (c.width - 32 - (B - s)))).setWidth B)
          let ws ← wrG ws (b + 3) (fun x => x ||| (v >>> (32 + (B - s))).setWidth B)
          return { c with bits := ws }
        else return { c with bits := ws }
      else return { c with bits := ws }) := by
    rw [← hstep]
    unfold HCV.set
    simp only [hi, hblk, hsh]
    rw [if_pos hs]
    simp only [Option.bind_eq_bind, Option.bind_assoc]
  rw [hsetdef]
  simp only [Option.bind_eq_bind, Option.bind_some]
  have hbit01 : ∀ q j, j < B → bitG ((c.bits.set b Y0).set (b + 1) Y1) q j =
      if q = b then Y0.getLsbD j else if q = b + 1 then Y1.getLsbD j else bitG c.bits q j := by
    intro q j _
    unfold bitG
    by_cases h1 : q = b + 1
    · subst h1
      rw [getDG_set_self _ _ _ (by simp; omega), if_neg (by omega), if_pos rfl]
    · rw [getDG_set_ne _ _ _ _ (fun e => h1 e.symm)]
      by_cases h0 : q = b
      · subst h0; rw [getDG_set_self _ _ _ (by omega), if_pos rfl]
      · rw [getDG_set_ne _ _ _ _ (fun e => h0 e.symm), if_neg h0, if_neg h1]
  by_cases hbig : c.width > B - s
  · have hl2 := hlen2 hbig
    rw [if_pos hbig, wrG_of_lt (by simp; omega)]
    simp only [Option.bind_some]
    rw [wrG_of_lt (by simp; omega)]
    simp only [Option.bind_some]
    rw [getDG_set_self _ _ _ (by simp; omega), List.set_set, if_neg (by omega)]
    refine ⟨_, rfl, by simp, ?_⟩
    intro q j hj
    have h2 : (c.bits.set b Y0 |>.set (b + 1) Y1).getD (b + 2) 0 = c.bits.getD (b + 2) 0 := by
      rw [getDG_set_ne _ _ _ _ (by omega), getDG_set_ne _ _ _ _ (by omega)]
    rw [h2]
    by_cases hq2 : q = b + 2
    · subst hq2
      unfold bitG
      rw [getDG_set_self _ _ _ (by simp; omega), X2 _ _ hj, hB2]
      by_cases hc : B - s + j < c.width
      · rw [if_pos hc, if_pos (by omega)]
        unfold pairBit; rw [if_neg (by omega)]; congr 1; omega
      · rw [if_neg hc, if_neg (by omega)]
    · have : ∀ Z, bitG (((c.bits.set b Y0).set (b + 1) Y1).set (b + 2) Z) q j = bitG ((c.bits.set b Y0).set (b + 1) Y1) q j := by
        intro Z; unfold bitG; rw [getDG_set_ne _ _ _ _ (fun e => hq2 e.symm)]
      rw [this, hbit01 q j hj]
      by_cases hq0 : q = b
      · subst hq0
        rw [if_pos rfl, hY0 j hj, hB0]
        by_cases hc : s ≤ j
        · rw [if_pos hc, if_pos (by omega)]; unfold pairBit; rw [if_pos (by omega)]; congr 1; omega
        · rw [if_neg hc, if_neg (by omega)]; rfl
      · rw [if_neg hq0]
        by_cases hq1 : q = b + 1
        · subst hq1
          rw [if_pos rfl, hY1 j hj, hB1]
          unfold pairBit
          by_cases hc : j < s
          · rw [if_pos hc, if_pos (by omega), if_pos (by omega)]; congr 1; omega
          · rw [if_neg hc, if_pos (show j < s + c.width by omega), if_pos (by omega), if_neg (by omega)]
            congr 1; omega
        · rw [if_neg hq1, if_neg]
          rcases Nat.lt_or_ge q b with hlt | hge
          · have := hlow q hlt; omega
          · have := hhigh q (by omega); omega
  · rw [if_neg hbig]
    refine ⟨_, rfl, by simp, ?_⟩
    intro q j hj
    rw [hbit01 q j hj]
    by_cases hq0 : q = b
    · subst hq0
      rw [if_pos rfl, hY0 j hj, hB0]
      by_cases hc : s ≤ j
      · rw [if_pos hc, if_pos (by omega)]; unfold pairBit; rw [if_pos (by omega)]; congr 1; omega
      · rw [if_neg hc, if_neg (by omega)]; rfl
    · rw [if_neg hq0]
      by_cases hq1 : q = b + 1
      · subst hq1
        rw [if_pos rfl, hY1 j hj, hB1]
        unfold pairBit
        by_cases hc : j < s
        · rw [if_pos hc, if_pos (by omega), if_pos (by omega)]; congr 1; omega
        · rw [if_neg hc]
          by_cases hc2 : j < s + c.width
          · rw [if_pos hc2, if_pos (by omega), if_neg (by omega)]; congr 1; omega
          · rw [if_neg hc2, if_neg (by omega)]; rfl
      · rw [if_neg hq1, if_neg]
        rcases Nat.lt_or_ge q b with hlt | hge
        · have := hlow q hlt; omega
        · have : b + 2 ≤ q := by omega
          have := Nat.mul_le_mul_right B this
          rw [hB2] at this; omega

/-- Aligned write. -/
theorem set_aligned {c : HCV B} {pos : Nat} (hw : c.width ≤ B) (hB : B ≤ 64) (hs : pos % B = 0)
    (hm : ∀ j, j < B → c.mask.getLsbD j = decide (j < c.width))
    (hend : pos + B + c.width ≤ B * c.bits.length) (hw1 : 1 ≤ c.width)
    (k : BitVec B) {v : W} (hv : v.toNat < 2 ^ c.width) (i : Nat) (hi : (i * (B + c.width)) % 2 ^ B = pos)
    (_h32 : B = 32 ∨ B = 64) :
    ∃ ws, c.set i k v = some { c with bits := ws } ∧ ws.length = c.bits.length ∧
      ∀ q j, j < B → bitG ws q j =
        if pos ≤ q * B + j ∧ q * B + j < pos + B + c.width then pairBit pos k v (q * B + j) else bitG c.bits q j := by
  have hb0 : 0 < B := by omega
  have hdm := Nat.div_add_mod pos B
  generalize hblk : pos / B = b at *
  rw [hs] at hdm
  have hlen1 : b + 1 < c.bits.length := by
    apply Nat.lt_of_not_le; intro hle
    have := Nat.mul_le_mul_left B hle
    rw [Nat.mul_add] at this; omega
  have hB1 : (b + 1) * B = B * b + B := by rw [Nat.succ_mul, Nat.mul_comm]
  have hB0 : b * B = B * b := Nat.mul_comm _ _
  unfold HCV.set
  simp only [hi, hblk, hs]
  rw [if_neg (by omega), wrG_of_lt (by omega)]
  simp only [Option.bind_eq_bind, Option.bind_some]
  rw [wrG_of_lt (by simp; omega)]
  simp only [Option.bind_some]
  rw [wrG_of_lt (by simp; omega)]
  simp only [Option.bind_some]
  rw [getDG_set_self _ _ _ (by simp; omega), List.set_set, getDG_set_ne _ _ _ _ (by omega), if_neg (by omega)]
  refine ⟨_, rfl, by simp, ?_⟩
  intro q j hj
  have h64 : j < 64 := by omega
  unfold bitG
  by_cases hq1 : q = b + 1
  · subst hq1
    rw [getDG_set_self _ _ _ (by simp; omega), BitVec.getLsbD_or, BitVec.getLsbD_and, BitVec.getLsbD_setWidth,
      BitVec.getLsbD_not, hm j hj, BitVec.getLsbD_setWidth, hB1]
    by_cases hc : j < c.width
    · rw [if_pos (by omega)]
      unfold pairBit
      rw [if_neg (by omega)]
      have : B * b + B + j - pos - B = j := by omega
      simp [hc, hj, this]
    · rw [if_neg (by omega), bit_high_false hv (by omega)]
      simp [hc, hj, h64]
  · rw [getDG_set_ne _ _ _ _ (fun e => hq1 e.symm)]
    by_cases hq0 : q = b
    · subst hq0
      rw [getDG_set_self _ _ _ (by omega), hB0, if_pos (by omega)]
      unfold pairBit
      rw [if_pos (by omega)]; congr 1; omega
    · rw [getDG_set_ne _ _ _ _ (fun e => hq0 e.symm), if_neg]
      rcases Nat.lt_or_ge q b with hlt | hge
      · have := Nat.mul_le_mul_right B (show q + 1 ≤ b from hlt)
        rw [Nat.succ_mul, hB0] at this; omega
      · have := Nat.mul_le_mul_right B (show b + 2 ≤ q by omega)
        rw [Nat.add_mul, hB0] at this; omega

/-- 32-bit keys with 64-bit values (always aligned): three words. -/
theorem set_32_64 {c : HCV 32} {pos : Nat} (hw : c.width = 64) (hs : pos % 32 = 0)
    (hm : ∀ j, j < 64 → c.mask.getLsbD j = true) (hend : pos + 32 + 64 ≤ 32 * c.bits.length)
    (k : BitVec 32) (v : W) (i : Nat) (hi : (i * (32 + c.width)) % 2 ^ 32 = pos) :
    ∃ ws, c.set i k v = some { c with bits := ws } ∧ ws.length = c.bits.length ∧
      ∀ q j, j < 32 → bitG ws q j =
        if pos ≤ q * 32 + j ∧ q * 32 + j < pos + 32 + c.width then pairBit pos k v (q * 32 + j) else bitG c.bits q j := by
  unfold HCV.set
  simp only [hi, hs]
  rw [if_neg (by omega), wrG_of_lt (by omega)]
  simp only [Option.bind_eq_bind, Option.bind_some]
  rw [wrG_of_lt (by simp; omega)]
  simp only [Option.bind_some]
  rw [wrG_of_lt (by simp; omega)]
  simp only [Option.bind_some]
  rw [getDG_set_self _ _ _ (by simp; omega), List.set_set, getDG_set_ne _ _ _ _ (by omega), if_pos (show True ∧ c.width > 32 by rw [hw]; decide),
    wrG_of_lt (by simp; omega)]
  simp only [Option.bind_some]
  rw [wrG_of_lt (by simp; omega)]
  simp only [Option.bind_some]
  rw [getDG_set_self _ _ _ (by simp; omega), List.set_set, getDG_set_ne _ _ _ _ (by omega),
    getDG_set_ne _ _ _ _ (by omega)]
  refine ⟨_, rfl, by simp, ?_⟩
  intro q j hj
  have h64 : j < 64 := by omega
  unfold bitG
  by_cases hq2 : q = pos / 32 + 2
  · subst hq2
    rw [getDG_set_self _ _ _ (by simp; omega), BitVec.getLsbD_or, BitVec.getLsbD_and, BitVec.getLsbD_setWidth,
      BitVec.getLsbD_not, BitVec.getLsbD_ushiftRight, BitVec.getLsbD_setWidth, BitVec.getLsbD_ushiftRight,
      hm _ (by omega), if_pos (by omega)]
    unfold pairBit
    rw [if_neg (by omega)]
    have : (pos / 32 + 2) * 32 + j - pos - 32 = 32 + j := by omega
    simp [hj, this]
  · rw [getDG_set_ne _ _ _ _ (fun e => hq2 e.symm)]
    by_cases hq1 : q = pos / 32 + 1
    · subst hq1
      rw [getDG_set_self _ _ _ (by simp; omega), BitVec.getLsbD_or, BitVec.getLsbD_and, BitVec.getLsbD_setWidth,
        BitVec.getLsbD_not, hm _ h64, BitVec.getLsbD_setWidth, if_pos (by omega)]
      unfold pairBit
      rw [if_neg (by omega)]
      have : (pos / 32 + 1) * 32 + j - pos - 32 = j := by omega
      simp [hj, this]
    · rw [getDG_set_ne _ _ _ _ (fun e => hq1 e.symm)]
      by_cases hq0 : q = pos / 32
      · subst hq0
        rw [getDG_set_self _ _ _ (by omega), if_pos (by omega)]
        unfold pairBit
        rw [if_pos (by omega)]; congr 1; omega
      · rw [getDG_set_ne _ _ _ _ (fun e => hq0 e.symm), if_neg (by omega)]

/-- `set` writes exactly its own slot. -/
theorem set_spec {c : HCV B} (h : c.Ok) {i : Nat} (hi : i < c.size) (k : BitVec B) {v : W}
    (hv : v.toNat < 2 ^ c.width) :
    ∃ ws, c.set i k v = some { c with bits := ws } ∧ HCV.Ok { c with bits := ws } ∧
      ∀ q j, j < B → bitG ws q j =
        if i * (B + c.width) ≤ q * B + j ∧ q * B + j < i * (B + c.width) + B + c.width then
          pairBit (i * (B + c.width)) k v (q * B + j) else bitG c.bits q j := by
  obtain ⟨hp, hend⟩ := h.pos_eq hi
  have hw1 := h.w1
  have main : ∃ ws, c.set i k v = some { c with bits := ws } ∧ ws.length = c.bits.length ∧
      ∀ q j, j < B → bitG ws q j =
        if i * (B + c.width) ≤ q * B + j ∧ q * B + j < i * (B + c.width) + B + c.width then
          pairBit (i * (B + c.width)) k v (q * B + j) else bitG c.bits q j := by
    have hmask := h.mask
    rcases h.hB with ⟨rfl, h64⟩ | ⟨rfl, h32⟩
    · by_cases hs : i * (64 + c.width) % 64 = 0
      · refine set_aligned h64 (Nat.le_refl _) hs ?_ hend hw1 k hv i hp (Or.inr rfl)
        intro j hj
        by_cases hw : c.width = 64
        · rw [(hmask j hj).2 (Or.inl hw)]; simp [hw, hj]
        · exact (hmask j hj).1 ⟨hw, hw⟩
      · have hw : c.width ≠ 64 := by intro e; rw [e] at hs; omega
        exact set_shift (by omega) (Nat.le_refl _) hs (fun j hj => (hmask j hj).1 ⟨hw, hw⟩) hend hw1 k hv i hp
          (Or.inr rfl)
    · rcases h32 with hle | hw64
      · by_cases hs : i * (32 + c.width) % 32 = 0
        · refine set_aligned hle (by omega) hs ?_ hend hw1 k hv i hp (Or.inl rfl)
          intro j hj
          by_cases hw : c.width = 32
          · rw [(hmask j (by omega)).2 (Or.inl hw)]; simp [hw, hj]
          · exact (hmask j (by omega)).1 ⟨hw, by omega⟩
        · have hw : c.width ≠ 32 := by intro e; rw [e] at hs; omega
          exact set_shift (by omega) (by omega) hs (fun j hj => (hmask j hj).1 ⟨hw, by omega⟩) hend hw1 k hv i hp
            (Or.inl rfl)
      · refine set_32_64 hw64 ?_ (fun j hj => (hmask j hj).2 (Or.inr hw64)) (by rw [hw64] at hend ⊢; exact hend) k v i hp
        rw [hw64]; omega
  obtain ⟨ws, e, hl, hb⟩ := main
  exact ⟨ws, e, ⟨h.hB, h.w1, by simp only; rw [hl]; exact h.len, h.pos, h.mask⟩, hb⟩

theorem getLsbD_maskSub {w : Nat} (hw : w < 64) (j : Nat) : ((1#64 <<< w) - 1#64).getLsbD j = decide (j < w) := by
  have : (1#64 <<< w) - 1#64 = maskOf w := by unfold maskOf; rw [if_neg (by omega)]
  rw [this, getLsbD_maskOf (by omega)]

/-- Unaligned read. -/
theorem get_shift {c : HCV B} {pos : Nat} (hw : c.width < B) (hB : B ≤ 64) (hs : pos % B ≠ 0)
    (hm : ∀ j, j < 64 → c.mask.getLsbD j = decide (j < c.width))
    (hend : pos + B + c.width ≤ B * c.bits.length) (hw1 : 1 ≤ c.width)
    (k : BitVec B) {v : W} (hv : v.toNat < 2 ^ c.width) (i : Nat) (hi : (i * (B + c.width)) % 2 ^ B = pos)
    (_h32 : B = 32 ∨ B = 64)
    (hbits : ∀ q j, j < B → pos ≤ q * B + j → q * B + j < pos + B + c.width →
      bitG c.bits q j = pairBit pos k v (q * B + j)) :
    c.get i = some (k, v) := by
  have hb0 : 0 < B := by omega
  have hdm := Nat.div_add_mod pos B
  have hsl := Nat.mod_lt pos hb0
  generalize hblk : pos / B = b at *
  generalize hsh : pos % B = s at *
  have hlen1 : b + 1 < c.bits.length := by
    apply Nat.lt_of_not_le; intro hle
    have := Nat.mul_le_mul_left B hle
    rw [Nat.mul_add] at this; omega
  have hlen2 : c.width > B - s → b + 2 < c.bits.length := by
    intro hgt
    apply Nat.lt_of_not_le; intro hle
    have := Nat.mul_le_mul_left B hle
    rw [Nat.mul_add] at this; omega
  have hB1 : (b + 1) * B = B * b + B := by rw [Nat.succ_mul, Nat.mul_comm]
  have hB2 : (b + 2) * B = B * b + 2 * B := by rw [Nat.add_mul, Nat.mul_comm]
  have hB0 : b * B = B * b := Nat.mul_comm _ _
  -- the words
  have w0 : ∀ j, j < B → s ≤ j → (c.bits.getD b 0).getLsbD j = k.getLsbD (j - s) := by
    intro j hj hc
    have := hbits b j hj (by omega) (by omega)
    unfold bitG pairBit at this
    rw [this, if_pos (by omega)]; congr 1; omega
  have w1k : ∀ j, j < s → (c.bits.getD (b + 1) 0).getLsbD j = k.getLsbD (B - s + j) := by
    intro j hj
    have := hbits (b + 1) j (by omega) (by omega) (by omega)
    unfold bitG pairBit at this
    rw [this, if_pos (by omega)]; congr 1; omega
  have w1v : ∀ j, j < B → s ≤ j → j < s + c.width → (c.bits.getD (b + 1) 0).getLsbD j = v.getLsbD (j - s) := by
    intro j hj hc hc2
    have := hbits (b + 1) j hj (by omega) (by omega)
    unfold bitG pairBit at this
    rw [this, if_neg (by omega)]; congr 1; omega
  have w2v : ∀ j, j < B → B - s + j < c.width → (c.bits.getD (b + 2) 0).getLsbD j = v.getLsbD (B - s + j) := by
    intro j hj hc
    have := hbits (b + 2) j hj (by omega) (by omega)
    unfold bitG pairBit at this
    rw [this, if_neg (by omega)]; congr 1; omega
  have hk : (c.bits.getD b 0 >>> s) ||| (c.bits.getD (b + 1) 0 <<< (B - s)) = k := by
    apply BitVec.eq_of_getLsbD_eq
    intro j hj
    rw [BitVec.getLsbD_or, BitVec.getLsbD_ushiftRight, BitVec.getLsbD_shiftLeft]
    by_cases hc : s + j < B
    · have h1 : j < B - s := by omega
      rw [w0 _ hc (by omega)]
      have : s + j - s = j := by omega
      simp [h1, this]
    · have h1 : ¬ j < B - s := by omega
      rw [BitVec.getLsbD_of_ge _ _ (by omega), w1k _ (by omega)]
      have : B - s + (j - (B - s)) = j := by omega
      simp [h1, this, hj]
  have hvlow : ∀ j, ((c.bits.getD (b + 1) 0 >>> s).setWidth 64 &&& c.mask).getLsbD j =
      (decide (j < B - s) && v.getLsbD j) := by
    intro j
    by_cases h64 : j < 64
    · rw [BitVec.getLsbD_and, BitVec.getLsbD_setWidth, BitVec.getLsbD_ushiftRight, hm j h64]
      by_cases hc : j < B - s
      · by_cases hc2 : j < c.width
        · rw [w1v _ (by omega) (by omega) (by omega)]
          have : s + j - s = j := by omega
          simp [hc, hc2, h64, this]
        · rw [bit_high_false hv (by omega)]; simp [hc2]
      · rw [BitVec.getLsbD_of_ge _ _ (by omega)]; simp [hc]
    · rw [BitVec.getLsbD_of_ge _ _ (by omega), BitVec.getLsbD_of_ge v _ (by omega)]; simp
  unfold HCV.get
  simp only [hi, hblk, hsh]
  rw [if_pos hs, rdG_of_lt (by omega), rdG_of_lt hlen1]
  simp only [Option.bind_eq_bind, Option.bind_some]
  rw [hk]
  by_cases hbig : c.width > B - s
  · rw [if_pos hbig, rdG_of_lt (hlen2 hbig)]
    simp only [Option.bind_some]
    rw [if_neg (by omega)]
    simp only [Option.pure_def]
    congr 2
    apply BitVec.eq_of_getLsbD_eq
    intro j h64
    rw [BitVec.getLsbD_or, hvlow, BitVec.getLsbD_shiftLeft, BitVec.getLsbD_and, BitVec.getLsbD_setWidth,
      getLsbD_maskSub (by omega)]
    by_cases hc : j < B - s
    · simp [hc]
    · by_cases hc2 : j < c.width
      · have h1 : j - (B - s) < c.width - (B - s) := by omega
        rw [w2v _ (by omega) (by omega)]
        have e : B - s + (j - (B - s)) = j := by omega
        have h2 : j - (B - s) < 64 := by omega
        simp [hc, h1, h2, h64, e]
      · have h1 : ¬ j - (B - s) < c.width - (B - s) := by omega
        rw [bit_high_false hv (by omega)]; simp [h1]
  · rw [if_neg hbig]
    simp only [Option.pure_def]
    congr 2
    apply BitVec.eq_of_getLsbD_eq
    intro j h64
    rw [hvlow]
    by_cases hc : j < B - s
    · simp [hc]
    · rw [bit_high_false hv (by omega)]; simp

/-- Aligned read. -/
theorem get_aligned {c : HCV B} {pos : Nat} (hw : c.width ≤ B) (hB : B ≤ 64) (hs : pos % B = 0)
    (hm : ∀ j, j < B → c.mask.getLsbD j = decide (j < c.width))
    (hend : pos + B + c.width ≤ B * c.bits.length) (hw1 : 1 ≤ c.width)
    (k : BitVec B) {v : W} (hv : v.toNat < 2 ^ c.width) (i : Nat) (hi : (i * (B + c.width)) % 2 ^ B = pos)
    (_h32 : B = 32 ∨ B = 64)
    (hbits : ∀ q j, j < B → pos ≤ q * B + j → q * B + j < pos + B + c.width →
      bitG c.bits q j = pairBit pos k v (q * B + j)) :
    c.get i = some (k, v) := by
  have hb0 : 0 < B := by omega
  have hdm := Nat.div_add_mod pos B
  generalize hblk : pos / B = b at *
  rw [hs] at hdm
  have hlen1 : b + 1 < c.bits.length := by
    apply Nat.lt_of_not_le; intro hle
    have := Nat.mul_le_mul_left B hle
    rw [Nat.mul_add] at this; omega
  have hB1 : (b + 1) * B = B * b + B := by rw [Nat.succ_mul, Nat.mul_comm]
  have hB0 : b * B = B * b := Nat.mul_comm _ _
  unfold HCV.get
  simp only [hi, hblk, hs]
  rw [if_neg (by omega), rdG_of_lt (by omega), rdG_of_lt hlen1]
  simp only [Option.bind_eq_bind, Option.bind_some]
  rw [if_neg (by omega)]
  simp only [Option.pure_def]
  congr 2
  · apply BitVec.eq_of_getLsbD_eq
    intro j hj
    have := hbits b j hj (by omega) (by omega)
    unfold bitG pairBit at this
    rw [this, if_pos (by omega)]; congr 1; omega
  · apply BitVec.eq_of_getLsbD_eq
    intro j h64
    rw [BitVec.getLsbD_and, BitVec.getLsbD_setWidth]
    by_cases hj : j < B
    · rw [hm j hj]
      by_cases hc : j < c.width
      · have := hbits (b + 1) j hj (by omega) (by omega)
        unfold bitG pairBit at this
        rw [this, if_neg (by omega)]
        have e : (b + 1) * B + j - pos - B = j := by omega
        simp [hc, h64, e]
      · rw [bit_high_false hv (by omega)]; simp [hc]
    · rw [BitVec.getLsbD_of_ge (c.bits.getD (b + 1) 0) _ (by omega), bit_high_false hv (by omega)]; simp

theorem get_32_64 {c : HCV 32} {pos : Nat} (hw : c.width = 64) (hs : pos % 32 = 0)
    (hm : ∀ j, j < 64 → c.mask.getLsbD j = true) (hend : pos + 32 + 64 ≤ 32 * c.bits.length)
    (k : BitVec 32) (v : W) (i : Nat) (hi : (i * (32 + c.width)) % 2 ^ 32 = pos)
    (hbits : ∀ q j, j < 32 → pos ≤ q * 32 + j → q * 32 + j < pos + 32 + c.width →
      bitG c.bits q j = pairBit pos k v (q * 32 + j)) :
    c.get i = some (k, v) := by
  unfold HCV.get
  simp only [hi, hs]
  rw [if_neg (by omega), rdG_of_lt (by omega), rdG_of_lt (by omega)]
  simp only [Option.bind_eq_bind, Option.bind_some]
  rw [if_pos (show True ∧ c.width > 32 by rw [hw]; decide), rdG_of_lt (by omega),
    if_pos (show c.width - 32 = 32 by rw [hw])]
  simp only [Option.bind_some, Option.pure_def]
  congr 2
  · apply BitVec.eq_of_getLsbD_eq
    intro j hj
    have := hbits (pos / 32) j hj (by omega) (by omega)
    unfold bitG pairBit at this
    rw [this, if_pos (by omega)]; congr 1; omega
  · apply BitVec.eq_of_getLsbD_eq
    intro j h64
    rw [BitVec.getLsbD_or, BitVec.getLsbD_and, BitVec.getLsbD_setWidth, BitVec.getLsbD_shiftLeft,
      BitVec.getLsbD_and, BitVec.getLsbD_setWidth, getLsbD_maskSub (by omega), hm j h64]
    by_cases hj : j < 32
    · have := hbits (pos / 32 + 1) j hj (by omega) (by omega)
      unfold bitG pairBit at this
      rw [this, if_neg (by omega)]
      have e : (pos / 32 + 1) * 32 + j - pos - 32 = j := by omega
      simp [h64, hj, e]
    · have := hbits (pos / 32 + 2) (j - 32) (by omega) (by omega) (by omega)
      unfold bitG pairBit at this
      rw [this, if_neg (by omega), BitVec.getLsbD_of_ge (c.bits.getD (pos / 32 + 1) 0) _ (by omega)]
      have e : (pos / 32 + 2) * 32 + (j - 32) - pos - 32 = j := by omega
      have e1 : j - 32 < 32 := by omega
      have e2 : j - 32 < 64 := by omega
      simp [h64, hj, e, e1, e2]

theorem get_spec {c : HCV B} (h : c.Ok) {i : Nat} (hi : i < c.size) (k : BitVec B) {v : W}
    (hv : v.toNat < 2 ^ c.width)
    (hbits : ∀ q j, j < B → i * (B + c.width) ≤ q * B + j → q * B + j < i * (B + c.width) + B + c.width →
      bitG c.bits q j = pairBit (i * (B + c.width)) k v (q * B + j)) :
    c.get i = some (k, v) := by
  obtain ⟨hp, hend⟩ := h.pos_eq hi
  have hw1 := h.w1
  have hmask := h.mask
  rcases h.hB with ⟨rfl, h64⟩ | ⟨rfl, h32⟩
  · by_cases hs : i * (64 + c.width) % 64 = 0
    · refine get_aligned h64 (Nat.le_refl _) hs ?_ hend hw1 k hv i hp (Or.inr rfl) hbits
      intro j hj
      by_cases hw : c.width = 64
      · rw [(hmask j hj).2 (Or.inl hw)]; simp [hw, hj]
      · exact (hmask j hj).1 ⟨hw, hw⟩
    · have hw : c.width ≠ 64 := by intro e; rw [e] at hs; omega
      exact get_shift (by omega) (Nat.le_refl _) hs (fun j hj => (hmask j hj).1 ⟨hw, hw⟩) hend hw1 k hv i hp
        (Or.inr rfl) hbits
  · rcases h32 with hle | hw64
    · by_cases hs : i * (32 + c.width) % 32 = 0
      · refine get_aligned hle (by omega) hs ?_ hend hw1 k hv i hp (Or.inl rfl) hbits
        intro j hj
        by_cases hw : c.width = 32
        · rw [(hmask j (by omega)).2 (Or.inl hw)]; simp [hw, hj]
        · exact (hmask j (by omega)).1 ⟨hw, by omega⟩
      · have hw : c.width ≠ 32 := by intro e; rw [e] at hs; omega
        exact get_shift (by omega) (by omega) hs (fun j hj => (hmask j hj).1 ⟨hw, by omega⟩) hend hw1 k hv i hp
          (Or.inl rfl) hbits
    · refine get_32_64 hw64 ?_ (fun j hj => (hmask j hj).2 (Or.inr hw64)) (by rw [hw64] at hend ⊢; exact hend) k v i hp hbits
      rw [hw64]; omega

/-- Specification: the entries of the vector are `es`. -/
structure Holds (c : HCV B) (es : List (BitVec B × W)) : Prop where
  ok : c.Ok
  size : c.size = es.length
  fits : ∀ e ∈ es, e.2.toNat < 2 ^ c.width
  bits : ∀ i (h : i < es.length), ∀ q j, j < B → i * (B + c.width) ≤ q * B + j →
    q * B + j < i * (B + c.width) + B + c.width →
    bitG c.bits q j = pairBit (i * (B + c.width)) es[i].1 es[i].2 (q * B + j)

theorem Holds.get {c : HCV B} {es : List (BitVec B × W)} (h : c.Holds es) {i : Nat} (hi : i < es.length) :
    c.get i = some es[i] :=
  get_spec h.ok (by rw [h.size]; exact hi) _ (h.fits _ (List.getElem_mem _)) (h.bits i hi)

theorem new_holds {n w : Nat} (hB : B = 64 ∧ w ≤ 64 ∨ B = 32 ∧ (w ≤ 32 ∨ w = 64)) (h1 : 1 ≤ w)
    (hp : n * (B + w) ≤ 2 ^ B) :
    ∃ c : HCV B, HCV.new B n w = some c ∧ c.Holds (List.replicate n (0, 0)) ∧ c.width = w := by
  obtain ⟨c, e, ok, hs, hw, hz⟩ := new_ok hB h1 hp
  refine ⟨c, e, ⟨ok, by simp [hs], ?_, ?_⟩, hw⟩
  · intro x hx; rw [(List.mem_replicate.1 hx).2]; exact Nat.two_pow_pos _
  · intro i hi q j hj _ _
    rw [hz]; unfold pairBit; simp

theorem Holds.set {c : HCV B} {es : List (BitVec B × W)} (h : c.Holds es) {i : Nat} (hi : i < es.length)
    (k : BitVec B) {v : W} (hv : v.toNat < 2 ^ c.width) :
    ∃ c', c.set i k v = some c' ∧ c'.Holds (es.set i (k, v)) ∧ c'.width = c.width := by
  obtain ⟨ws, e, ok, hb⟩ := set_spec h.ok (by rw [h.size]; exact hi) k hv
  refine ⟨_, e, ⟨ok, by simp [h.size], ?_, ?_⟩, rfl⟩
  · intro x hx
    rcases List.mem_or_eq_of_mem_set hx with h' | h'
    · exact h.fits x h'
    · subst h'; exact hv
  · intro t ht q j hj h1 h2
    rw [List.length_set] at ht
    simp only at h1 h2 ⊢
    rw [hb q j hj]
    simp only [List.getElem_set]
    by_cases hit : i = t
    · subst hit; rw [if_pos ⟨h1, h2⟩]; simp
    · rw [if_neg, h.bits t ht q j hj h1 h2]
      · simp [hit]
      · intro ⟨h3, h4⟩
        rcases Nat.lt_or_gt_of_ne hit with hlt | hgt
        · have := Nat.mul_le_mul_right (B + c.width) (show i + 1 ≤ t from hlt)
          rw [Nat.succ_mul] at this; omega
        · have := Nat.mul_le_mul_right (B + c.width) (show t + 1 ≤ i from hgt)
          rw [Nat.succ_mul] at this; omega

/-- A history of `set` calls. -/
def setAll : List (Nat × BitVec B × W) → HCV B → Option (HCV B)
  | [], c => some c
  | (i, k, v) :: ops, c => (c.set i k v).bind (setAll ops)

theorem Holds.setAll {n w : Nat} (ops : List (Nat × BitVec B × W)) :
    ∀ {c : HCV B} {es : List (BitVec B × W)}, c.Holds es → es.length = n → c.width = w →
      (∀ o ∈ ops, o.1 < n ∧ o.2.2.toNat < 2 ^ w) →
      ∃ c', c.setAll ops = some c' ∧ c'.Holds (ops.foldl (fun es o => es.set o.1 o.2) es) ∧ c'.width = w := by
  induction ops with
  | nil => intro c es h _ hw _; exact ⟨c, rfl, h, hw⟩
  | cons o ops ih =>
    intro c es h hl hw ho
    obtain ⟨i, k, v⟩ := o
    obtain ⟨h1, h2⟩ := ho (i, k, v) (by simp)
    obtain ⟨c1, e1, g1, q1⟩ := h.set (i := i) (by omega) k (v := v) (by rw [hw]; exact h2)
    obtain ⟨c2, e2, g2, q2⟩ := ih g1 (by simpa using hl) (by rw [q1, hw]) (fun o h => ho o (by simp [h]))
    refine ⟨c2, ?_, g2, q2⟩
    simp only [HCV.setAll]; rw [e1, Option.bind_some, e2]

end HCV

/-! ## Property C09 -/

/-- After any history of in-range `set(i, key, value)` calls, `operator[](i)` returns the pair last
written at `i` ((0,0) if none). 64-bit keys: every value width; 32-bit keys: value widths 1..32 and 64, and the
vector shorter than 2^32 bits. -/
theorem C09_hash_compact_vector_lossless {B n w : Nat}
    (hB : B = 64 ∧ w ≤ 64 ∨ B = 32 ∧ (w ≤ 32 ∨ w = 64)) (h1 : 1 ≤ w) (hsize : n * (B + w) ≤ 2 ^ B)
    (ops : List (Nat × BitVec B × W)) (hops : ∀ o ∈ ops, o.1 < n ∧ o.2.2.toNat < 2 ^ w) :
    ∃ c c', HCV.new B n w = some c ∧ c.setAll ops = some c' ∧ c'.size = n ∧
      ∀ i, i < n → c'.get i = some ((ops.foldl (fun es o => es.set o.1 o.2) (List.replicate n (0, 0))).getD i (0, 0)) := by
  obtain ⟨c, e, hh, hw⟩ := HCV.new_holds hB h1 hsize
  obtain ⟨c', e', hh', _⟩ := hh.setAll (n := n) (w := w) ops (by simp) hw hops
  have hlen : (ops.foldl (fun es o => es.set o.1 o.2) (List.replicate n ((0, 0) : BitVec B × W))).length = n := by
    have : ∀ (ops : List (Nat × BitVec B × W)) (es : List (BitVec B × W)),
        (ops.foldl (fun es o => es.set o.1 o.2) es).length = es.length := by
      intro ops; induction ops with
      | nil => intro es; rfl
      | cons o ops ih => intro es; rw [List.foldl_cons, ih]; simp
    rw [this]; simp
  refine ⟨c, c', e, e', by rw [hh'.size, hlen], fun i hi => ?_⟩
  rw [hh'.get (by omega), List.getD_eq_getElem?_getD, List.getElem?_eq_getElem (by omega), Option.getD_some]

/-- Non-vacuity, 64- and 32-bit keys. -/
example : ∀ o ∈ [(1, (7#64, 100#64)), (0, (9#64, 5#64)), (1, (3#64, 1#64))], o.1 < 2 ∧ o.2.2.toNat < 2 ^ 7 := by simp
example : ∀ o ∈ [(1, (7#32, 100#64)), (0, (9#32, 5#64))], o.1 < 2 ∧ o.2.2.toNat < 2 ^ 7 := by simp



/-- 32-bit keys and value width 40: writing entry 0 after entry 1 destroys entry 1. -/
theorem C09_32bit_wide_value_defect :
    (do let c ← HCV.new 32 2 40
        let c ← c.set 1 0xdeadbeef#32 5#64
        let c ← c.set 0 0x12345678#32 7#64
        c.get 1) = some (0xde000000#32, 5#64) := by decide +kernel

/-- 32-bit keys: bit positions are computed in 32 bits, so with value width 32 entry 2^26 aliases
entry 0 whatever the vector contains. -/
theorem C09_32bit_position_wraps_defect (c : HCV 32) (hw : c.width = 32) (k : BitVec 32) (v : W) :
    c.set (2 ^ 26) k v = c.set 0 k v ∧ c.get (2 ^ 26) = c.get 0 := by
  have h : (2 ^ 26 * (32 + c.width)) % 2 ^ 32 = (0 * (32 + c.width)) % 2 ^ 32 := by rw [hw]
  constructor
  · unfold HCV.set; rw [h]
  · unfold HCV.get; rw [h]

end Tongrams
