import Verif.Word
/-!
# The header of a binary file and the type it names

`binary_header` (include/utils/binary_header.hpp), the command lines of `src/build_trie.cpp` and `src/build_hash.cpp` that fill it, and the lists of
types of `include/lm_types.hpp` by which the tools choose the class to build or load.  A thrown exception is `Except.error ()`; a failed assertion is `none`.
-/
namespace Tongrams

/-- `enum data_structure_type` (include/utils/util_types.hpp:12-16). -/
def dsHash : Int := 0
/-- include/utils/util_types.hpp:12-16. -/
def dsEfTrie : Int := 1
/-- include/utils/util_types.hpp:12-16. -/
def dsPefTrie : Int := 2
/-- `enum value_type` (include/utils/util_types.hpp:18). -/
def vtCount : Int := 0
/-- include/utils/util_types.hpp:18. -/
def vtProbBackoff : Int := 1
/-- `enum ranks_type` (include/utils/util_types.hpp:20-24). -/
def rkIC : Int := 0
/-- include/utils/util_types.hpp:20-24. -/
def rkPSEF : Int := 1
/-- include/utils/util_types.hpp:20-24. -/
def rkPSPEF : Int := 2

/-- The fields of `binary_header` (include/utils/binary_header.hpp:183-187). -/
structure BinaryHeader where
  dataStructure : Int
  value : Int
  remappingOrder : Int
  hashKeyBytes : Int
  ranks : Int
  deriving DecidableEq, Repr

namespace BinaryHeader

/-- The default constructor: all fields `invalid` (binary_header.hpp:37-44). -/
def empty : BinaryHeader := ⟨-1, -1, -1, -1, -1⟩

/-- An `int` shifted left and or-ed to a `uint8_t`: the low 8 bits (binary_header.hpp:61-79). -/
def low8 (x : Int) (pos : Nat) : BitVec 8 := BitVec.ofInt 8 x <<< pos

/-- `check_is_valid` (binary_header.hpp:46-54). -/
def checkIsValid (x : Int) : Except Unit Unit := if x = -1 then .error () else .ok ()

/-- `get` (binary_header.hpp:56-83). -/
def get (h : BinaryHeader) : Except Unit (BitVec 8) := do
  checkIsValid h.dataStructure
  let header := 0#8 ||| low8 h.dataStructure 0
  checkIsValid h.value
  let header := header ||| low8 h.value 2
  if h.dataStructure = dsHash then
    checkIsValid h.hashKeyBytes
    return header ||| low8 (h.hashKeyBytes / 4 - 1) 3
  else
    checkIsValid h.remappingOrder
    let header := header ||| low8 h.remappingOrder 3
    if h.value = vtCount then
      checkIsValid h.ranks
      return header ||| low8 h.ranks 5
    else return header

/-- `parse` (binary_header.hpp:85-181); the string built is a list of characters here. -/
def parse (header : BitVec 8) : Option String := do
  let ds : Int := (header &&& 3#8).toNat
  let s ← if ds = dsHash then some "mph" else if ds = dsEfTrie then some "ef_trie" else if ds = dsPefTrie then some "pef_trie" else none
  let header := header >>> 2
  let value : Int := (header &&& 1#8).toNat
  let header := header >>> 1
  let s ← if ds = dsHash then
      let hashKeyBytes := ((header &&& 1#8).toNat + 1) * 4
      some (s ++ if hashKeyBytes = 4 then "32" else "64")
    else do
      let remappingOrder := (header &&& 3#8).toNat
      let header := header >>> 2
      let s := if remappingOrder ≠ 0 then if ds = dsEfTrie then "ef_rtrie" else "pef_rtrie" else s
      if value = vtCount then
        let ranks : Int := (header &&& 3#8).toNat
        if ranks = rkIC then some (s ++ "_IC_ranks") else if ranks = rkPSEF then some (s ++ "_PSEF_ranks")
        else if ranks = rkPSPEF then some (s ++ "_PSPEF_ranks") else none
      else some s
  if value = vtCount then some (s ++ "_count_lm") else if value = vtProbBackoff then some (s ++ "_prob_lm") else none

end BinaryHeader

/-! ## The types -/

/-- How word ids are mapped below the unigrams (include/mappers.hpp). -/
inductive MapperT where
  | identity | sortedArray
  deriving DecidableEq, Repr

/-- Gram sequences of a trie (include/lm_types.hpp:40-92). -/
inductive GramsT where
  | fastEF | uniformPEF
  deriving DecidableEq, Repr

/-- Count rank sequences of a trie (include/lm_types.hpp:40-79). -/
inductive RanksT where
  | IC | PSEF | PSPEF
  deriving DecidableEq, Repr

/-- The model classes of the library. -/
inductive ModelT where
  | mphCount (hashKeyBits : Nat)
  | mphProb (hashKeyBits : Nat)
  | trieCount (mapper : MapperT) (ranks : RanksT) (grams : GramsT)
  | trieProb (mapper : MapperT) (grams : GramsT)
  deriving DecidableEq, Repr

/-- The typedefs (include/lm_types.hpp:25-92), each with its name. -/
def typedefs : List (String × ModelT) :=
  [("mph32_count_lm", .mphCount 32), ("mph64_count_lm", .mphCount 64), ("mph32_prob_lm", .mphProb 32), ("mph64_prob_lm", .mphProb 64),
   ("ef_trie_IC_ranks_count_lm", .trieCount .identity .IC .fastEF),
   ("ef_trie_PSEF_ranks_count_lm", .trieCount .identity .PSEF .fastEF),
   ("ef_trie_PSPEF_ranks_count_lm", .trieCount .identity .PSPEF .fastEF),
   ("ef_rtrie_IC_ranks_count_lm", .trieCount .sortedArray .IC .fastEF),
   ("ef_rtrie_PSEF_ranks_count_lm", .trieCount .sortedArray .PSEF .fastEF),
   ("ef_rtrie_PSPEF_ranks_count_lm", .trieCount .sortedArray .PSPEF .fastEF),
   ("pef_trie_IC_ranks_count_lm", .trieCount .identity .IC .uniformPEF),
   ("pef_trie_PSEF_ranks_count_lm", .trieCount .identity .PSEF .uniformPEF),
   ("pef_trie_PSPEF_ranks_count_lm", .trieCount .identity .PSPEF .uniformPEF),
   ("pef_rtrie_IC_ranks_count_lm", .trieCount .sortedArray .IC .uniformPEF),
   ("pef_rtrie_PSEF_ranks_count_lm", .trieCount .sortedArray .PSEF .uniformPEF),
   ("pef_rtrie_PSPEF_ranks_count_lm", .trieCount .sortedArray .PSPEF .uniformPEF),
   ("ef_trie_prob_lm", .trieProb .identity .fastEF), ("pef_trie_prob_lm", .trieProb .identity .uniformPEF),
   ("ef_rtrie_prob_lm", .trieProb .sortedArray .fastEF), ("pef_rtrie_prob_lm", .trieProb .sortedArray .uniformPEF)]

/-- `TONGRAMS_TYPES` (include/lm_types.hpp:95-103). -/
def allTypes : List String :=
  ["mph32_count_lm", "mph64_count_lm", "ef_trie_IC_ranks_count_lm", "ef_trie_PSEF_ranks_count_lm", "ef_trie_PSPEF_ranks_count_lm",
   "ef_rtrie_IC_ranks_count_lm", "ef_rtrie_PSEF_ranks_count_lm", "ef_rtrie_PSPEF_ranks_count_lm", "pef_trie_IC_ranks_count_lm",
   "pef_trie_PSEF_ranks_count_lm", "pef_trie_PSPEF_ranks_count_lm", "pef_rtrie_IC_ranks_count_lm", "pef_rtrie_PSEF_ranks_count_lm",
   "pef_rtrie_PSPEF_ranks_count_lm", "ef_trie_prob_lm", "pef_trie_prob_lm", "ef_rtrie_prob_lm", "pef_rtrie_prob_lm", "mph32_prob_lm", "mph64_prob_lm"]

/-- `TONGRAMS_COUNT_TYPES` (include/lm_types.hpp:107-114). -/
def countTypes : List String :=
  ["mph32_count_lm", "mph64_count_lm", "ef_trie_IC_ranks_count_lm", "ef_trie_PSEF_ranks_count_lm", "ef_trie_PSPEF_ranks_count_lm",
   "ef_rtrie_IC_ranks_count_lm", "ef_rtrie_PSEF_ranks_count_lm", "ef_rtrie_PSPEF_ranks_count_lm", "pef_trie_IC_ranks_count_lm",
   "pef_trie_PSEF_ranks_count_lm", "pef_trie_PSPEF_ranks_count_lm", "pef_rtrie_IC_ranks_count_lm", "pef_rtrie_PSEF_ranks_count_lm",
   "pef_rtrie_PSPEF_ranks_count_lm"]

/-- `TONGRAMS_HASH_COUNT_TYPES` (include/lm_types.hpp:117). -/
def hashCountTypes : List String := ["mph32_count_lm", "mph64_count_lm"]
/-- `TONGRAMS_HASH_PROB_TYPES` (include/lm_types.hpp:120). -/
def hashProbTypes : List String := ["mph32_prob_lm", "mph64_prob_lm"]
/-- `TONGRAMS_TRIE_COUNT_TYPES` (include/lm_types.hpp:123-129). -/
def trieCountTypes : List String :=
  ["ef_trie_IC_ranks_count_lm", "ef_trie_PSEF_ranks_count_lm", "ef_trie_PSPEF_ranks_count_lm",
   "ef_rtrie_IC_ranks_count_lm", "ef_rtrie_PSEF_ranks_count_lm", "ef_rtrie_PSPEF_ranks_count_lm", "pef_trie_IC_ranks_count_lm",
   "pef_trie_PSEF_ranks_count_lm", "pef_trie_PSPEF_ranks_count_lm", "pef_rtrie_IC_ranks_count_lm", "pef_rtrie_PSEF_ranks_count_lm",
   "pef_rtrie_PSPEF_ranks_count_lm"]
/-- `TONGRAMS_TRIE_PROB_TYPES` (include/lm_types.hpp:132-133). -/
def trieProbTypes : List String := ["ef_trie_prob_lm", "pef_trie_prob_lm", "ef_rtrie_prob_lm", "pef_rtrie_prob_lm"]
/-- `TONGRAMS_SCORE_TYPES` (include/lm_types.hpp:136-138). -/
def scoreTypes : List String := ["ef_trie_prob_lm", "pef_trie_prob_lm", "ef_rtrie_prob_lm", "pef_rtrie_prob_lm", "mph32_prob_lm", "mph64_prob_lm"]

/-- `if (false) {} else if (name == "T") ... else unknown`: the class chosen for a name from a list of types (src/build_trie.cpp:143-172,
src/build_hash.cpp:107-137, src/lookup_perf_test.cpp:78-89, src/score.cpp:96-107, src/print_stats.cpp:28-38); `none` for the error message. -/
def dispatch (types : List String) (name : String) : Option ModelT :=
  (types.find? (· == name)).bind fun t => (typedefs.find? (·.1 == t)).map (·.2)

/-! ## The command lines -/

/-- The arguments of `build_trie` that choose the class (src/build_trie.cpp:9-50). -/
structure TrieArgs where
  dataStructure : String
  value : String
  remapping : Option Nat
  ranks : Option String
  deriving DecidableEq

/-- `check_remapping_order` (include/utils/util.hpp:303-309): its parameter is a `uint8_t`, so the value passed is truncated to 8 bits. -/
def checkRemappingOrder (x : Nat) : Except Unit Unit := if x % 256 > 2 then .error () else .ok ()

/-- src/build_trie.cpp:57-135: the class built (`none`: an error message) with the header byte that will be saved.  `return 1` is `Except.error ()`. -/
def buildTrieChoice (a : TrieArgs) : Option (Except Unit (BitVec 8 × Option ModelT)) := do
  let h := { BinaryHeader.empty with remappingOrder := 0, ranks := rkIC }
  let h := if a.dataStructure = "ef_trie" then { h with dataStructure := dsEfTrie }
    else if a.dataStructure = "pef_trie" then { h with dataStructure := dsPefTrie } else h
  if h.dataStructure = -1 then return .error ()
  let h := if a.value = "count" then { h with value := vtCount } else if a.value = "prob_backoff" then { h with value := vtProbBackoff } else h
  if h.value = -1 then return .error ()
  match (match a.remapping with
    | some r => do checkRemappingOrder r; pure { h with remappingOrder := (r : Int) }
    | none => pure h : Except Unit BinaryHeader) with
  | .error () => return .error ()
  | .ok h =>
    let h := match a.ranks with
      | some r => if r = "IC" then { h with ranks := rkIC } else if r = "PSEF" then { h with ranks := rkPSEF }
        else if r = "PSPEF" then { h with ranks := rkPSPEF } else h
      | none => h
    match h.get with
    | .error () => return .error ()
    | .ok header =>
      let name ← BinaryHeader.parse header
      return .ok (header, dispatch (if h.value = vtCount then trieCountTypes else trieProbTypes) name)

/-- The arguments of `build_hash` that choose the class (src/build_hash.cpp:9-24). -/
structure HashArgs where
  value : String
  hashKeyBytes : Nat
  deriving DecidableEq

/-- src/build_hash.cpp:42-98. -/
def buildHashChoice (a : HashArgs) : Option (Except Unit (BitVec 8 × Option ModelT)) := do
  if a.hashKeyBytes ≠ 4 ∧ a.hashKeyBytes ≠ 8 then return .error ()
  let h := { BinaryHeader.empty with dataStructure := dsHash, hashKeyBytes := (a.hashKeyBytes : Int) }
  let h := if a.value = "count" then { h with value := vtCount } else if a.value = "prob_backoff" then { h with value := vtProbBackoff } else h
  if h.value = -1 then return .error ()
  match h.get with
  | .error () => return .error ()
  | .ok header =>
    let name ← BinaryHeader.parse header
    return .ok (header, dispatch (if h.value = vtCount then hashCountTypes else hashProbTypes) name)

/-- `get_model_type` (include/utils/util.hpp:428-441) followed by the choice of the class to load: what a tool that supports `types` does with a file
whose first byte is `header`. -/
def loadChoice (types : List String) (header : BitVec 8) : Option (Option ModelT) := (BinaryHeader.parse header).map (dispatch types)

/-! ## Specification -/

/-- The class that the arguments of `build_trie` ask for. -/
def Spec.trieType (a : TrieArgs) : ModelT :=
  let mapper := if a.remapping.getD 0 = 0 then MapperT.identity else .sortedArray
  let grams := if a.dataStructure = "ef_trie" then GramsT.fastEF else .uniformPEF
  let ranks := match a.ranks with
    | some r => if r = "PSEF" then RanksT.PSEF else if r = "PSPEF" then .PSPEF else .IC
    | none => .IC
  if a.value = "count" then .trieCount mapper ranks grams else .trieProb mapper grams

/-- The class that the arguments of `build_hash` ask for. -/
def Spec.hashType (a : HashArgs) : ModelT := if a.value = "count" then .mphCount (8 * a.hashKeyBytes) else .mphProb (8 * a.hashKeyBytes)

/-- Arguments the documentation allows. -/
structure Spec.ValidTrieArgs (a : TrieArgs) : Prop where
  dataStructure : a.dataStructure = "ef_trie" ∨ a.dataStructure = "pef_trie"
  value : a.value = "count" ∨ a.value = "prob_backoff"
  remapping : ∀ r ∈ a.remapping, r ≤ 2
  ranks : ∀ r ∈ a.ranks, r = "IC" ∨ r = "PSEF" ∨ r = "PSPEF"

/-- Arguments the documentation allows. -/
structure Spec.ValidHashArgs (a : HashArgs) : Prop where
  value : a.value = "count" ∨ a.value = "prob_backoff"
  hashKeyBytes : a.hashKeyBytes = 4 ∨ a.hashKeyBytes = 8

/-- Classes with counts. -/
def Spec.isCount : ModelT → Bool
  | .mphCount _ => true
  | .trieCount _ _ _ => true
  | _ => false

/-- Two classes chosen by their arguments and remapping orders are told apart by the header; the remapping order is what remains of the arguments. -/
def Spec.remapping (a : TrieArgs) : Nat := a.remapping.getD 0

/-! ## Proofs -/

/-- The bytes and classes of all the valid command lines of `build_trie`: a complete enumeration. -/
def Spec.trieArgs : List TrieArgs :=
  ["ef_trie", "pef_trie"].flatMap fun d => ["count", "prob_backoff"].flatMap fun v => [none, some 0, some 1, some 2].flatMap fun r =>
    [none, some "IC", some "PSEF", some "PSPEF"].map fun k => ⟨d, v, r, k⟩

theorem Spec.ValidTrieArgs.mem {a : TrieArgs} (h : Spec.ValidTrieArgs a) : a ∈ Spec.trieArgs := by
  obtain ⟨d, v, r, k⟩ := a
  obtain ⟨h1, h2, h3, h4⟩ := h
  simp only at h1 h2 h3 h4
  have hr : r ∈ [none, some 0, some 1, some 2] := by
    cases r with
    | none => simp
    | some r => have := h3 r rfl; have : r = 0 ∨ r = 1 ∨ r = 2 := by omega
                rcases this with rfl | rfl | rfl <;> simp
  have hk : k ∈ [none, some "IC", some "PSEF", some "PSPEF"] := by
    cases k with
    | none => simp
    | some k => rcases h4 k rfl with rfl | rfl | rfl <;> simp
  simp only [Spec.trieArgs, List.mem_flatMap, List.mem_map]
  exact ⟨d, by rcases h1 with rfl | rfl <;> simp, v, by rcases h2 with rfl | rfl <;> simp, r, hr, k, hk, rfl⟩

theorem trieArgs_ok : ∀ a ∈ Spec.trieArgs, (buildTrieChoice a).any (fun
    | .ok (header, t) => t == some (Spec.trieType a) &&
        loadChoice allTypes header == some (some (Spec.trieType a)) &&
        loadChoice countTypes header == some (if Spec.isCount (Spec.trieType a) then some (Spec.trieType a) else none) &&
        loadChoice scoreTypes header == some (if Spec.isCount (Spec.trieType a) then none else some (Spec.trieType a))
    | .error _ => false) = true := by
  decide +kernel

/-- All the valid command lines of `build_hash`. -/
def Spec.hashArgs : List HashArgs := [⟨"count", 4⟩, ⟨"count", 8⟩, ⟨"prob_backoff", 4⟩, ⟨"prob_backoff", 8⟩]

theorem Spec.ValidHashArgs.mem {a : HashArgs} (h : Spec.ValidHashArgs a) : a ∈ Spec.hashArgs := by
  obtain ⟨v, k⟩ := a
  obtain ⟨h1, h2⟩ := h
  simp only at h1 h2
  rcases h1 with rfl | rfl <;> rcases h2 with rfl | rfl <;> simp [Spec.hashArgs]

theorem hashArgs_ok : ∀ a ∈ Spec.hashArgs, (buildHashChoice a).any (fun
    | .ok (header, t) => t == some (Spec.hashType a) &&
        loadChoice allTypes header == some (some (Spec.hashType a)) &&
        loadChoice countTypes header == some (if Spec.isCount (Spec.hashType a) then some (Spec.hashType a) else none) &&
        loadChoice scoreTypes header == some (if Spec.isCount (Spec.hashType a) then none else some (Spec.hashType a))
    | .error _ => false) = true := by
  decide +kernel

theorem choice_of_any {x : Option (Except Unit (BitVec 8 × Option ModelT))} {p : BitVec 8 → Option ModelT → Bool}
    (h : x.any (fun | .ok (header, t) => p header t | .error _ => false) = true) : ∃ header t, x = some (.ok (header, t)) ∧ p header t = true := by
  match x, h with
  | some (.ok (header, t)), h => exact ⟨header, t, rfl, h⟩

/-- **C35**.  For all arguments of `build_trie` that the documentation allows, the class built is the one asked for, and for the header saved each tool
chooses the same class to load the file: `print_stats` always, `lookup_perf_test` if it holds counts, `score` if it holds probabilities (the tools refuse
the other files). -/
theorem C35_trie_header (a : TrieArgs) (h : Spec.ValidTrieArgs a) :
    ∃ header, buildTrieChoice a = some (.ok (header, some (Spec.trieType a))) ∧
      loadChoice allTypes header = some (some (Spec.trieType a)) ∧
      loadChoice countTypes header = some (if Spec.isCount (Spec.trieType a) then some (Spec.trieType a) else none) ∧
      loadChoice scoreTypes header = some (if Spec.isCount (Spec.trieType a) then none else some (Spec.trieType a)) := by
  obtain ⟨header, t, e, hp⟩ := choice_of_any (p := fun header t => t == some (Spec.trieType a) &&
        loadChoice allTypes header == some (some (Spec.trieType a)) &&
        loadChoice countTypes header == some (if Spec.isCount (Spec.trieType a) then some (Spec.trieType a) else none) &&
        loadChoice scoreTypes header == some (if Spec.isCount (Spec.trieType a) then none else some (Spec.trieType a))) (trieArgs_ok a h.mem)
  simp only [Bool.and_eq_true, beq_iff_eq] at hp
  obtain ⟨⟨⟨rfl, h2⟩, h3⟩, h4⟩ := hp
  exact ⟨header, e, h2, h3, h4⟩

example : Spec.ValidTrieArgs ⟨"pef_trie", "count", some 2, some "PSEF"⟩ := ⟨by simp, by simp, by simp, by simp⟩
example : Spec.trieType ⟨"pef_trie", "count", some 2, some "PSEF"⟩ = .trieCount .sortedArray .PSEF .uniformPEF := by decide

/-- **C35** for `build_hash`. -/
theorem C35_hash_header (a : HashArgs) (h : Spec.ValidHashArgs a) :
    ∃ header, buildHashChoice a = some (.ok (header, some (Spec.hashType a))) ∧
      loadChoice allTypes header = some (some (Spec.hashType a)) ∧
      loadChoice countTypes header = some (if Spec.isCount (Spec.hashType a) then some (Spec.hashType a) else none) ∧
      loadChoice scoreTypes header = some (if Spec.isCount (Spec.hashType a) then none else some (Spec.hashType a)) := by
  obtain ⟨header, t, e, hp⟩ := choice_of_any (p := fun header t => t == some (Spec.hashType a) &&
        loadChoice allTypes header == some (some (Spec.hashType a)) &&
        loadChoice countTypes header == some (if Spec.isCount (Spec.hashType a) then some (Spec.hashType a) else none) &&
        loadChoice scoreTypes header == some (if Spec.isCount (Spec.hashType a) then none else some (Spec.hashType a))) (hashArgs_ok a h.mem)
  simp only [Bool.and_eq_true, beq_iff_eq] at hp
  obtain ⟨⟨⟨rfl, h2⟩, h3⟩, h4⟩ := hp
  exact ⟨header, e, h2, h3, h4⟩

example : Spec.ValidHashArgs ⟨"prob_backoff", 4⟩ := ⟨by simp, by simp⟩

/-- The header of a choice. -/
def headerOf (x : Option (Except Unit (BitVec 8 × Option ModelT))) : Option (BitVec 8) := x.bind fun | .ok (h, _) => some h | .error _ => none

theorem headerOf_ok {x : Option (Except Unit (BitVec 8 × Option ModelT))} {h : BitVec 8} {t : Option ModelT} (e : x = some (.ok (h, t))) :
    headerOf x = some h := by rw [e]; rfl

theorem trieArgs_inj : ∀ a ∈ Spec.trieArgs, ∀ b ∈ Spec.trieArgs, headerOf (buildTrieChoice a) = headerOf (buildTrieChoice b) ↔
    Spec.trieType a = Spec.trieType b ∧ Spec.remapping a = Spec.remapping b := by
  decide +kernel

/-- The format of the header byte of a trie: the data structure in bits 0-1 (1: ef, 2: pef), the values in bit 2 (1: backoff), the remapping order in bits 3-4 and,
for counts, the ranks in bits 5-6 (0: IC, 1: PSEF, 2: PSPEF).  Files outlive the program that wrote them, so these numbers are part of what users rely on. -/
def Spec.trieHeader (a : TrieArgs) : BitVec 8 :=
  BitVec.ofNat 8 ((if a.dataStructure = "ef_trie" then 1 else 2) + (if a.value = "count" then 0 else 4) + 8 * a.remapping.getD 0 +
    (if a.value = "count" then if a.ranks = some "PSEF" then 32 else if a.ranks = some "PSPEF" then 64 else 0 else 0))

/-- The format of the header byte of a hash model: bits 0-1 are 0, the values in bit 2, and bit 3 is set for 8-byte hashes. -/
def Spec.hashHeader (a : HashArgs) : BitVec 8 :=
  BitVec.ofNat 8 ((if a.value = "count" then 0 else 4) + if a.hashKeyBytes = 8 then 8 else 0)

theorem trieArgs_bytes : ∀ a ∈ Spec.trieArgs, headerOf (buildTrieChoice a) = some (Spec.trieHeader a) := by decide +kernel
theorem hashArgs_bytes : ∀ a ∈ Spec.hashArgs, headerOf (buildHashChoice a) = some (Spec.hashHeader a) := by decide +kernel

/-- **C35** (format).  The byte that `build_trie` saves. -/
theorem C35_header_byte (a : TrieArgs) (h : Spec.ValidTrieArgs a) (header : BitVec 8) (t : Option ModelT)
    (e : buildTrieChoice a = some (.ok (header, t))) : header = Spec.trieHeader a := by
  have := trieArgs_bytes a h.mem
  rw [headerOf_ok e] at this
  exact Option.some.inj this

/-- **C35** (format).  The byte that `build_hash` saves. -/
theorem C35_hash_header_byte (a : HashArgs) (h : Spec.ValidHashArgs a) (header : BitVec 8) (t : Option ModelT)
    (e : buildHashChoice a = some (.ok (header, t))) : header = Spec.hashHeader a := by
  have := hashArgs_bytes a h.mem
  rw [headerOf_ok e] at this
  exact Option.some.inj this

example : Spec.trieHeader ⟨"pef_trie", "count", some 2, some "PSEF"⟩ = 50#8 := by decide

/-- **C35**.  Two valid command lines of `build_trie` save the same header exactly when they ask for the same class and the same remapping order. -/
theorem C35_trie_headers_differ (a b : TrieArgs) (ha : Spec.ValidTrieArgs a) (hb : Spec.ValidTrieArgs b) (header header' : BitVec 8)
    (t t' : Option ModelT) (ea : buildTrieChoice a = some (.ok (header, t))) (eb : buildTrieChoice b = some (.ok (header', t'))) :
    header = header' ↔ Spec.trieType a = Spec.trieType b ∧ Spec.remapping a = Spec.remapping b := by
  rw [← trieArgs_inj a ha.mem b hb.mem, headerOf_ok ea, headerOf_ok eb, Option.some_inj]

/-- **C35**.  Every header byte that is accepted at all names a class of the library, so no file is loaded as a class the tools do not know. -/
theorem C35_accepted_headers_name_a_class (header : BitVec 8) (name : String) (h : BinaryHeader.parse header = some name) :
    (dispatch allTypes name).isSome := by
  have : ∀ x : BitVec 8, ((BinaryHeader.parse x).all fun n => (dispatch allTypes n).isSome) = true := by decide +kernel
  have := this header
  rw [h] at this
  exact this

/-- **C35**.  Command lines with another data structure or value type are refused. -/
theorem C35_wrong_arguments_are_refused (a : TrieArgs)
    (h : (a.dataStructure ≠ "ef_trie" ∧ a.dataStructure ≠ "pef_trie") ∨ (a.value ≠ "count" ∧ a.value ≠ "prob_backoff") ∨
      ∃ r, a.remapping = some r ∧ 2 < r ∧ r < 256) : buildTrieChoice a = some (.error ()) := by
  obtain ⟨d, v, r, k⟩ := a
  simp only at h
  unfold buildTrieChoice
  by_cases h1 : d ≠ "ef_trie" ∧ d ≠ "pef_trie"
  · simp [h1.1, h1.2, BinaryHeader.empty]
  by_cases h2 : v ≠ "count" ∧ v ≠ "prob_backoff"
  · by_cases hd : d = "ef_trie"
    · simp [hd, h2.1, h2.2, BinaryHeader.empty, dsEfTrie]
    · have : d = "pef_trie" := Classical.byContradiction fun hc => h1 ⟨hd, hc⟩
      simp [this, h2.1, h2.2, BinaryHeader.empty, dsPefTrie]
  · rcases h with h | h | ⟨r, rfl, hr, hr'⟩
    · exact absurd h h1
    · exact absurd h h2
    · have hm : r % 256 > 2 := by omega
      have hd : d = "ef_trie" ∨ d = "pef_trie" := Classical.byContradiction fun hc => h1 (not_or.1 hc)
      have hv : v = "count" ∨ v = "prob_backoff" := Classical.byContradiction fun hc => h2 (not_or.1 hc)
      rcases hd with rfl | rfl <;> rcases hv with rfl | rfl <;>
        simp [BinaryHeader.empty, dsEfTrie, dsPefTrie, vtCount, vtProbBackoff, checkRemappingOrder, hm] <;> rfl

/-- C35, defect: a misspelt `--ranks` is not refused; a trie with the default ranks (IC) is built silently. -/
theorem C35_unknown_ranks_accepted_defect (ranks : String) (h : ranks ≠ "IC" ∧ ranks ≠ "PSEF" ∧ ranks ≠ "PSPEF") :
    buildTrieChoice ⟨"ef_trie", "count", none, some ranks⟩ = buildTrieChoice ⟨"ef_trie", "count", none, some "IC"⟩ := by
  unfold buildTrieChoice
  simp [h.1, h.2.1, h.2.2]
  rfl

end Tongrams
