# Formal model of jermp/tongrams in Lean 4 — design

The model is under `lean/Verif/`. It is a hand translation of the C++ in /repo,
function by function; each definition cites the file and lines it models.

## Conventions

* 64-bit words are `BitVec 64`; a `std::vector<uint64_t>` is a `List (BitVec 64)`.
* Undefined behaviour (reads and writes outside a vector, running off the end) is a
  distinct outcome: partial functions return `Option`, `none` meaning undefined
  behaviour / abort. A theorem of the form `f x = some v` therefore also says that
  the execution of `f x` is memory safe. `assert`s are off (release build, NDEBUG),
  which is how CMake builds the project by default.
* Sizes, indices and bit positions are `Nat`, i.e. the model assumes that no such
  quantity exceeds 2^64 (a vector of 2^64 bits does not fit in memory). Where
  wrap-around matters the model uses `BitVec` or explicit `% 2^k`. C74 proves this
  assumption harmless for compact vectors, hash tables, bit vectors and Elias-Fano.
* Stored values are `BitVec 64` or `Nat` with an explicit bound.
* External code is a parameter with stated assumptions (see "Trusted base").

## Plan per property

* **C01 compact_vector stores every value losslessly** — Model builder state (words, cur_block, cur_shift, mask) over `List (BitVec 64)`; out-of-range access = `none`. Invariant: bit i*w+j of the storage is bit j of value i. Induction over pushes.
* **C02 compact_vector builder set is a per-index update** — Same model; `set` proved to be a pointwise update of the abstract value function; induction over the history.
* **C03 compact_vector iterator equals random access** — Iterator state machine (block, shift); invariant 64*block+shift = i*w; induction over steps.
* **C04 compact_vector::access agrees with operator[] for widths up to 57** — Storage as bytes followed by arbitrary junk; unaligned 8-byte little-endian read. Proved for w <= 57, witness for w = 64.
* **C05 bit_vector_builder refines a list of bits** — Builder = (words, size); abstraction to `List Bool`; each op commutes with the abstraction (refinement); lifted to histories.
* **C06 bit_vector scanning finds the right set bit** — predecessor1 / unary_iterator modelled with fuel-free recursion over words; `none` when running off the storage.
* **C07 Gamma and delta codes are self-delimiting and lossless** — write/read modelled over builder + bits_iterator; invariant of the buffered reader; induction over the list.
* **C08 compact_triplets_vector stores triplets losslessly** — Triplet builder over words, same bit-extensional method.
* **C09 hash_compact_vector stores (hash key, value) pairs losslessly** — Generic over the key width; history induction; negative witness for 32-bit keys. HashWide.lean: 32-bit keys with wide values, written in order; invariant: all bits after the last entry written are zero.
* **C10 Bit primitives are exact on every word** — BitVec model of the broadword code; table lookups by `decide +kernel` over the whole table; lifted to all words.
* **C11 darray select is exact** — darray build over positions; block inventory invariants; select proved via unary iterator skip.
* **C12 ef_sequence returns the sequence it was built from** — ef_sequence = low bits + darray-indexed high bits; refinement to the input list.
* **C13 fast_ef_sequence returns the values it was built from** — fast_ef write/operator[] over the ef core.
* **C14 fast_ef_sequence::find is exact on non-empty ranges** — find decomposed: BFS sampled tree, bsearch, linear scan; specification is the unique index in range; witness for the empty range.
* **C15 indexed_codewords_sequence is lossless** — codeword = (value+2) without leading one; lengths by EF positions.
* **C16 prefix_summed_sequence returns the values it was built from** — prefix sums list function + inverse.
* **C17 uniform_pef_sequence random access is exact and history independent** — compact EF partition encode/decode + cursor state machine; history independence by an invariant on the cursor.
* **C18 uniform_pef_sequence::find locates every present id** — find over upper bounds then next_geq; witnesses for the absent cases.
* **C19 Circular context buffer returns the last pushed words** — Ring buffer with index arithmetic; refinement to the list of pushes.
* **C20 Value collections: access inverts rank** — Frequency-sorted list of distinct values, rank via map.
* **C21 Quantiser is well-behaved** — A class FloatArith with the laws the proofs need (rounded difference monotone, mean of a bin within its bounds, x+0=x), proved to hold of the rationals and of IEEE 754 binary32 with binary64 accumulation (Floats.lean: rounding to nearest, ties to even, gradual underflow). Bins, codebook and nearest-centroid search as loops over sorted lists; induction over the bins.
* **C22 The minimal perfect hash is a bijection onto [0,n)** — Peeling order as a parameter with its validity predicate (emphf is external).
* **C23 Hash tables return the stored value for each key** — Tables over the mphf + hash_compact_vector model; hash function arbitrary.
* **C24 Trie count model returns the count of every stored n-gram** — Trie built level by level from sorted lists; lookup proved by induction over the levels against the abstract map.
* **C25 Trie count model reports absent n-grams as absent** — Same model, absent case; witnesses for the defects.
* **C26 Hash count model returns the count of every stored n-gram** — Per-order hash tables over C23.
* **C27 Trie backoff score is the ARPA backoff score** — Score over an abstract value type with addition; refinement to the recursive ARPA definition.
* **C28 Hash backoff score is the ARPA backoff score** — Same specification as C27 for the hash model.
* **C29 Scoring state stays within bounds** — Invariant of the scoring state machine.
* **C30 Sentence scores are independent of earlier sentences** — Fold over sentences; state reset at each.
* **C31 Tokenisation splits exactly at separators** — Byte lists; iterators as state machines over a list and positions.
* **C32 n-gram prefix and suffix extraction** — Functions over byte lists.
* **C33 n-gram comparators are total orders consistent with ids** — Comparators as functions over byte strings with a vocabulary map; order axioms.
* **C34 External sort outputs a sorted permutation of its input** — Merge loop as a function on lists of batches with a heap; driver loop with batch boundary; witness for the lost record.
* **C35 Binary header identifies the model type** — Header arithmetic on 8-bit value; finite table decided by the kernel.
* **C36 Save and load are inverse** — Byte-level save and load of every structure, member by member, modelled separately; round trips composed (Spec.Reads). Tries are given with their sequences (SaveModels.lean), building shown equal to the query-function model; monotonicity of lookup/score in the answers of the arrays handles sequences that were never built and are saved with uninitialised contents. PefSave.lean does the same for tries whose sequences change under queries (uniform_pef_sequence, prefix sums over it): queries keep what save writes, load prepares new enumerators, and the loaded trie is again related to the ideal one.
* **C37 Packing two floats and unpacking returns them** — BitVec 32/64.
* **C38 Trie pointers delimit the children of each node** — build_ngrams loop modelled as a fold; spec by counting prefixes.
* **C39 Binary search locates present elements** — Loop with wrap-around `uint64` hi; `none` = out-of-bounds read.
* **C40 Gram pools keep every appended gram until full** — Pool state machine.
* **C41 Count line parsing** — Byte lists.
* **C42 bits_iterator: any mixture of reads follows the bits** — Buffered reader invariant (buffer = next bits, clean above), induction over the reads; specification on List Bool.
* **C43 An ARPA file is read as written** — The parser as a state machine over the remaining bytes (getline, blank-line loop with fuel, header loop); specification = a generator of ARPA texts; theorem: the parser inverts the generator.
* **C44 From the bytes of the files to the answers** — Composition of the parsers (C41, C43), the tokeniser and the model theorems (C24, C26, C27, C28).
* **C45 Unsupported orders are rejected** — The four builders' models call the order checks first; by cases on the checks.
* **C46 The score tool reports the totals of the corpus file** — The loops of score.cpp with reading and scoring interleaved; proved equal to tokenising first (C31) and scoring the words (C27, C28, C30).
* **C47 The Python module returns the counts and scores of the files** — The three wrapper functions as loops over the tokenisers; composed with C44, C25, C31 and the scoring theorems.
* **C48 Compact Elias-Fano sequences answer every session as a cursor over the list** — PropsCEF.lean: write preserves an invariant on four bit regions (pointers to zeros, pointers to ones, high bits, low bits); the enumerator's state is a cursor after the one of its value; each call goes from an invariant state to the one the specification's cursor names; sessions by induction. CompactEF.lean has the model.
* **C49 Count tries over uniform_pef_sequence answer sessions of stored n-grams** — the trie with mutable arrays (StTrie.lean) refines the pure trie of C24/C25 restricted to the searches that are answered; invariant: each PEF cursor stays in a state from which every present id is found (C18). PefTrie.lean
* **C50 From text files to answers after saving and loading** — composition of C43/C44/C46/C47 with C36; the missing link, proved in BuiltFits.lean, is that every structure a builder produces fits the widths it is saved with. EndToEnd.lean; the uniform_pef tries, through their stateful model, in PefEndToEnd.lean
* **C51 sort_grams sorts any n-gram file, text to text** — byte-level model of the sorter (streams, getline, temporary files) shown equal to the text of the line-level one (C34); vocabulary table by C23; pools by C14; builder by C44. SortText.lean, SortTools.lean
* **C52 sort_arpa sorts any section of an ARPA file, text to text** — model of main's loops over the parser and the pool; induction over sections and lines; the sorter as in C51 with the suffix order; C44 for the builder. SortArpa.lean
* **C53 print_stats reports the numbers of the input** — Stats.lean: the loops over the iterators of pointers and grams, the top-5 queue and the map of occurrences; the built sequences are shown to hold the absolute values and the pointers (inversion of the construction); the loaded sequences hold the same; sums, extrema and entropies by induction over the ranges. PefStats.lean: the same loops over the iterators of uniform_pef_sequence, on tries whose queries change their state — built, queried, loaded and queried again.
* **C54 print_stats' numbers of bytes account for the whole file** — Sizes.lean: bytes()/data_bytes() of every container; each save writes bytes() plus the lengths and hash functions that bytes() omits; summed over the orders of the loaded model; 64-bit subtractions shown not to wrap. PefSizes.lean: tries whose sequences queries change, from what a loaded sequence writes when saved again (C36).
* **C55 Partitioned Elias-Fano backoff tries score correctly, with any interleaving of states** — PefProb.lean: the scorer with the arrays threaded through every call refines the stateless scorer over an ideal sequence that answers only clear searches (C49's ideal); then C27's invariant per state, by induction over the session.
* **C56 The sizes of the saved structures are bounded** — Space.lean: an invariant of the darray builder bounds its inventories and overflow positions by the bits and the set bits; the samples of a long range are bounded by its length; every save length by Sizes.lean; then sums over the orders of a built model; SpaceProb.lean: the same for backoff models, with the codebooks and the vocabulary of two values; SpacePef.lean: the bits of the partitions of a pef_sequence sum to a bound in the universe, and tries whose sequences queries change are bounded through an invariant of their builder and the fact that lookups do not change what is saved; SpacePefProb.lean: backoff tries likewise.
* **C57 The library's own test programs pass for every draw of their generators** — OwnTests.lean: each program as a function of what its generator draws; the checks follow from the theorems on the structures (C01-C05, C09, C13, C14, C17, C18) applied to the drawn data, whose sortedness follows from the generator.
* **C58 test_count_model and lookup_perf_test report exactly what the model in the file answers** — CheckModel.lean: both programs as functions of the bytes of their input files, over any model given by order, size and lookup (which may return a changed model). Generic theorems by induction over lines, orders and runs; then the models through C36 (loading), C21/C25/C26/C49 (answers) and the sizes of the arrays.
* **C59 Builds with the POPCNT and PDEP instructions compute what the portable build computes** — Hardware.lean: POPCNT, PDEP and TZCNT as the loops of their definition in the processor's manual; loop invariants relate them to rank and select of the word (C10), the portable broadword code outside the precondition is analysed from its byte sums.
* **C60 A trie that could be built was built from sorted and complete files** — Accept.lean: inversion of a successful build: the loop of build_ngrams gives the prefixes and the order between contexts, the Elias-Fano builder's check gives the order within a context; induction over the orders, in which the levels already known sorted make map_id exact (with remapping); the converse is C24 (for backoff tries C27, under the assumption that prefixes are listed, which their builder does not check and which makes what remapping looks up listed). Not covered: the defects of the check (an n-gram listed twice; without remapping, a last word outside the vocabulary; an ARPA n-gram whose prefix is not listed) are exhibited as theorems.
* **C61 A Python object answers every sequence of calls like the files it was built from** — Python.lean: an object is a nullable pointer, a session a list of calls; induction over the session with C50 for each call. Defects as theorems: a constructor with a wrong argument leaves a null pointer that the next call dereferences; a file that does not open ends the process; the model type of the header is not compared; a second constructor call leaks the first model; a remapped trie gives wrong scores. Not modelled: the interpreter and reference counts.
* **C62 Lookups in count tries do not influence each other unless they overlap** — Threads.lean: a lookup is a sequence of steps over the shared arrays word_ids and parent_ids; a machine of threads with an optional lock runs a schedule. Refinement of the unshared lookup by a simulation of the arrays, an invariant over schedules, and a budget that decreases in each fair round. Defect as a theorem: two interleavings without the lock that return a wrong count and miss a stored n-gram. Not modelled: word tearing and the memory model (steps are sequentially consistent), classes with separate arrays (all models share them here); PefThreads.lean: the three steps of find on the shared enumerator of a uniform_pef_sequence; in turns they are a session (C18), overlapping they miss a stored id.
* **C63 A model file that was cut short is never read as complete** — CutFiles.lean: each load depends only on the bytes it consumes (by composition over the members); with C36 (the whole file is loaded and read to its end) no proper beginning can be. emphf's loads are assumed to depend only on the bytes they consume. Not modelled: what a failed stream leaves in the members (the load goes on with them).
* **C64 The choice of the data structure does not change the answers** — Choice.lean: the codebooks, the ARPA model and the probability of unknown words do not depend on the order of lines (values are sorted before they are averaged; keys are distinct); each structure is shown to implement the ARPA model with these codebooks (the proofs of C27, C28, C46, C55).  Equal values are equal numbers: -0.0 and 0.0 are not distinguished.
* **C65 The totals that score reports are accurate for texts of ordinary length** — Accuracy.lean, with `Binary32` of Floats.lean as the type of the values: sums of n values of one sign err by at most (1+2^-24)^n - 1 (no cancellation, and sums of floats below the normal range are exact); (1+2^-24)^n - 1 <= n/2^23 by induction.  Infinities are left out (the exponent has no upper bound), as everywhere in Floats.lean.  The exact sums are those of the scores as `score` returns them; that these are the ARPA model's is C46. PefTotals.lean: the same for pef tries.
* **C66 Coinciding hash keys only mix up words, and only as a replacement** — Collisions.lean: a look-up in a table depends on the position and the hash key only, and these are the same for a word and for what it is taken for; the replaced query satisfies the hypotheses of C24, C25 and C46.  A hash function can also map an unknown word to the slot behind the last one (`C23_absent_key_out_of_bounds_defect`); such words are excluded. PefCollisions.lean: the same for pef tries, through the stateless trie they simulate.  `C66_one_hash_in_2_to_the_B_collides`: 31 has an inverse modulo 2^B.
* **C67 The reported total against the exact total of the ARPA file** — Exact.lean: forward error analysis over `Binary32`: each addition multiplies a non-positive sum by a factor in [1-u, 1+u], so a score over n context words is within (1±u)^n of the exact score over the quantised values, and sums of sums accordingly; the exact scores over quantised and listed values differ by at most d per addend (induction on the context); combined with C46 and the textbook scores of C27. PefTotals.lean: the same for pef tries.
* **C68 The perplexities that score prints** — Perplexity.lean: the two printed powers (division and `pow` taken as exact, over Mathlib's reals) of the totals of C46; forward error analysis of C67 for the total, a second one for the total of the unknown words (every word's computed score, exact score over the quantised values and exact score over the listed values side by side), one more rounding for their difference; monotonicity of powers of ten. PefTotals.lean: the same for pef tries.
* **C69 The command-line programs, end to end** — Tools.lean, PrintTool.lean and (sorting first, by C51/C52) Workflow.lean: the six programs as functions from their arguments and the bytes of their input files to the bytes of the file written or the numbers printed; the choice of the class by the builder and by the reader (C35) composed with C50/C58 for each class; the class chosen by the reader is the one chosen by the builder, and the remapping order in the file is the one its mapper applies.
* **C70 Reproducible builds** — Repro.lean, over the programs of Tools.lean: two constructions run in step, with states that save the same bytes (twins); a list sorted by a strict order without ties is determined by its elements; conversely the vectors of counts are read off the file, and two sorts that break ties up and down give different vectors. The members of objects that are never built, the hash functions of the external library and the sort of floats are the same in both environments (their contents are the subject of the last defect).
* **C71 Builders keep their write position** — BuilderMemory.lean: builders as objects with an address and a pointer, in a memory shared by all, where a growing vector moves to any free address or stays; accesses at addresses that are not in use are undefined. Invariant: each builder stands for its list, no two share an address, and if the last word is not full the pointer is at it. The bits are those of the operations of BitVector.lean, where the pointer is an index.
* **C72 Too little memory** — LittleMemory.lean: the builders of MphCount.lean and MphProb.lean with the size of the pools as a variable; C40 tells when a pool refuses, induction over the orders carries it to the builder and to the program; the same for the unigrams of count tries.
* **C73 Search cost** — SearchCost.lean: the searches of FastEF.lean, BinarySearch.lean and DArray.lean with budgets for the elements they read, which give up when the budget is spent; the budget is shown to suffice by induction over the levels of the samples, and the lookup theorem of C24 is proved again for tries whose searches have the budget.
* **C74 Sizes and positions in 64 bits** — MachineSizes.lean: the functions of CompactVector.lean, HashCompactVector.lean, BitVector.lean and EliasFano.lean that add or multiply sizes, with every sum and product modulo 2^64; shown equal to the unbounded ones in the range, so that C02, C05, C09 and C12 carry over; counterexamples at 2^58 and 2^57 entries.
* **C75 The orders of a hash model are independent** — Orders.lean: what a built model holds at each index is a function of the section with that index, from the equations of the builders; two runs of the loop of score() on the same state agree as long as the lookups of the orders they reach agree; non-vacuity: two count models with other bigrams and two trigram models with other trigrams.

## Where each property is stated

`MANIFEST.json` lists the theorems of each property. A property theorem is named `Cnn_...` and lives in namespace
`Tongrams`; a concrete case meeting its hypotheses is the `example` next to it. `Cnn_..._defect` are theorems about the
released code misbehaving outside the hypotheses (they justify the hypotheses). Specifications (`Spec.*`) are
definitions over lists, bits and maps that do not mention the data structures; most are in `Spec.lean`, the others at the
top of the module that uses them.

## Method

1. *Bit level* (Word, Util, BitVector, CompactVector, HashCompactVector): a vector is characterised by the value of each
   bit; each read or write is proved to return or change exactly the intended bits (extensionality over bits, no
   bit-blasting: widths are variables).
2. *Indexes* (SelectTable, DArray, EliasFano, FastEF, IndexedCodewords, CompactEF, UniformPEF): refinement of the
   structure to the list it was built from; loops by invariants, search by the position of the first larger element.
3. *Hashing* (Mphf, MphTables): the three-hash peeling construction with the peeling order as a parameter satisfying
   its defining property; assignment by induction along the order.
4. *Models* (TrieCount, TrieProb, MphCount, MphProb): building is a function of the parsed sections, look-up and scoring
   are proved against a map from n-grams to values; score against the recursive ARPA definition.
5. *Files* (Bytes, Parsers, Arpa, Sorter, FromFiles, Serialization, SaveModels): the functions on the bytes; end to end
   theorems compose them (C36, C44).

## What is modelled, file by file

Lines of code cited by the model over lines of code (comments, braces and preprocessor lines not counted), and the
modules. Lines not cited are: includes and typedefs, `bytes()`, `swap`, default constructors, printing, timing,
command-line plumbing, and what is listed in "Not modelled".

| file | cited / code | modules |
|---|---|---|
| include/lm_types.hpp | 81/81 | Header, PefTrie, PropsSave, ScoreText, Tools, TrieImpl |
| include/mappers.hpp | 125/155 | FromFiles, StTrie, Threads, Trie, TrieCount |
| include/mph_count_lm.hpp | 65/71 | CheckModel, Collections, FromFiles, LittleMemory, MphCount, MphText, Parsers, SaveModels, Sizes, Tools |
| include/mph_prob_lm.hpp | 191/202 | Arpa, ArpaData, FromFiles, LittleMemory, MphProb, MphSession, MphText, SaveModels, Score, Sizes, TrieProb |
| include/score.hpp | 62/62 | ArpaData, Floats, PefProb, Score, TrieProb |
| include/sequences/compact_elias_fano.hpp | 228/262 | CompactEF, PropsCEF |
| include/sequences/darray.hpp | 93/111 | DArray, SearchCost, Serialization, Sizes |
| include/sequences/ef_sequence.hpp | 83/108 | EliasFano, MachineSizes, SaveModels, Serialization, Sizes, Stats |
| include/sequences/fast_ef_sequence.hpp | 218/291 | EliasFano, FastEF, PefSizes, SaveModels, SearchCost, Serialization, Sizes, Stats, UniformPEF |
| include/sequences/indexed_codewords_sequence.hpp | 68/78 | IndexedCodewords, Serialization, Sizes, TrieImpl |
| include/sequences/integer_codes.hpp | 23/23 | IntegerCodes |
| include/sequences/pef_global_parameters.hpp | 5/10 | CompactEF |
| include/sequences/pointer_sequence.hpp | 5/29 | Sizes, Trie |
| include/sequences/prefix_summed_sequence.hpp | 23/31 | IndexedCodewords, PefSave, PefSizes, PefTrie, Serialization, Sizes, SpacePef, TrieImpl |
| include/sequences/sequence_collections.hpp | 200/201 | BinarySearch, Collections, Floats, Quantizer, SaveModels, Sizes |
| include/sequences/uniform_pef_sequence.hpp | 340/353 | PefIter, PefSave, PefSizes, PefStats, PefThreads, PefTrie, PropsPEF, Serialization, Sizes, SpacePef, Stats, UniformPEF |
| include/sorters/sorter.hpp | 112/118 | SortText, Sorter |
| include/sorters/sorter_common.hpp | 39/41 | Comparator, SortTools |
| include/state.hpp | 31/32 | State |
| include/trie_count_lm.hpp | 196/214 | CheckModel, Collections, EndToEnd, FromFiles, LittleMemory, Parsers, PefEndToEnd, PefSave, PefStats, SaveModels, Sizes, StTrie, Stats, Threads, Tools, Trie, TrieCount, TriePointers |
| include/trie_prob_lm.hpp | 225/242 | Arpa, ArpaData, EndToEnd, FromFiles, PefEndToEnd, PefProb, PefSave, PefStats, SaveModels, Score, Sizes, Stats, Tools, Trie, TriePointers, TrieProb |
| include/utils/binary_header.hpp | 109/136 | Header, Trie |
| include/utils/circular_buffer.hpp | 36/36 | State |
| include/utils/iterators.hpp | 90/90 | Arpa, Bytes, Comparator, Score |
| include/utils/mph_tables.hpp | 146/209 | MphTables, Serialization, Sizes |
| include/utils/mphf.hpp | 63/84 | MphTables, Mphf, SaveModels, Serialization, Sizes |
| include/utils/parsers.hpp | 163/190 | Arpa, ArpaData, CheckModel, Parsers, SortArpa |
| include/utils/pools.hpp | 94/94 | CheckModel, Parsers, Pools |
| include/utils/stats.cpp | 267/280 | PefSizes, PefStats, PrintTool, Sizes, Stats |
| include/utils/util.hpp | 307/335 | BinarySearch, Bytes, Hardware, Header, OwnTests, Parsers, SaveModels, ScoreBounds, SelectTable, SortText, State, Tools, Util |
| include/utils/util_types.hpp | 9/39 | Header |
| include/vectors/bit_vector.hpp | 215/239 | BitIter, BitVector, BuilderMemory, MachineSizes, PefSave, Serialization, Sizes, UniformPEF, Word |
| include/vectors/compact_triplets_vector.hpp | 56/85 | IntegerCodes, Serialization, Sizes |
| include/vectors/compact_vector.hpp | 162/212 | CompactVector, MachineSizes, PefSave, Serialization, Sizes, TrieImpl, UniformPEF, Word |
| include/vectors/hash_compact_vector.hpp | 91/125 | HashCompactVector, MachineSizes, Serialization, Sizes |
| include/vectors/sorted_array.hpp | 150/150 | PefSave, PefSizes, SaveModels, Sizes, StTrie, Trie, TrieImpl |
| python/tongrams.cpp | 83/131 | Bytes, Python, ScoreText |
| src/build_hash.cpp | 104/108 | Header, Tools |
| src/build_trie.cpp | 135/137 | Header, Tools |
| src/lookup_perf_test.cpp | 62/63 | CheckModel, Header, Threads, Tools |
| src/print_stats.cpp | 20/21 | Header, PrintTool, Sizes |
| src/score.cpp | 69/69 | Accuracy, Bytes, Header, PefEndToEnd, PefProb, Perplexity, Score, ScoreText, Tools |
| src/sort_arpa.cpp | 76/77 | SortArpa |
| src/sort_grams.cpp | 56/72 | SortTools, Sorter |

## Not modelled

* `stats.cpp`: the text around the numbers.
* `lookup_perf_test.cpp`, `test_count_model.cpp`: timing and the text of the messages (what they look up and report is C58).
* `swap`, move constructors, logging, progress messages, command-line parsing (except the choice of the type,
  Header.lean), the tuning of memory pools (`sysconf`).
* `ef_sequence`'s optional index on zeros: not instantiated by the library (darray0 itself is modelled, C11).
* zlib (the decompressed bytes are the input), the file system (a file is its bytes), `mmap`, `strtod` / `strtoull` on
  malformed numbers (a parameter), the jenkins hashers and the XOR peeling of emphf (parameters).
* Concurrency: the library starts no threads. The static arrays of count look-ups are modelled with threads that use them (C62); the C++ memory model is not.
* The SSE4.2 / BMI2 variants of popcount and select (`#if`) are modelled separately (C59); the rest of the model uses the portable variants. The meaning of the three instructions is taken from the processor's manual.

## Findings: where the released code does not do what a user would expect

Each is a theorem (`..._defect`) or a hypothesis that a theorem shows to be needed.

* compact_vector: built from an iterator, the value 2^64-1 is lost (C01). `access` returns wrong values for widths 59, 61,
  62, 63 (C04).
* Integer codes: the value 2^64-1 (C07); `get_bits(64)` then `skip_zeros` (C42).
* hash_compact_vector with 32-bit keys: widths 33..63, and sizes above 2^32 bits (C09).
* mphf: never terminates for duplicate keys, nor for two keys (C22). Look-up of an absent key may read out of bounds (C23).
* fast_ef_sequence: never builds with two long ranges (C13); find on an empty range (C14).
* indexed_codewords_sequence: values 2^64-2 and above (C15).
* uniform_pef_sequence: universes of 2^31 and more are truncated in a single partition (C17); `find` reports an absent id
  when it occurs in a later range, reads past the upper bounds, returns the start of the range for id 0, and misses a
  present id in a single partition of equal values (C18).
* compact_elias_fano (C48): `next_geq` of a bound beyond the universe, and sequences whose last value equals the universe, read
  outside the structure.
* pef count tries (C49): if a level of one partition has ids [x,0,0,..] (x>0) a stored n-gram gets a wrong count; an absent bigram
  is reported found with the count of another one.
* pef backoff tries (C55): an absent n-gram whose first word has id 0, or a greater id than all words listed there, may be found: the
  word gets the probability of another n-gram.
* Tries: look-up of a too long n-gram is checked with an off-by-one; absent words and empty ranges (C25).
* mph_count_lm: look-up of an absent n-gram indexes with `not_found` (C26).
* Scores: an n-gram whose backoff is zero ends the context (C27). Order 9 overflows the state (C29).
* text_lines: a last line without final newline (C31); back_to the first word (C32); comparators with unknown words (C33).
* sorter: the last record is lost if the last batch has one record (C34); so `sort_grams` and `sort_arpa` lose the last n-gram of
  such inputs and write nothing for a single n-gram (C51). The output is opened in append mode: `sort_grams` run twice on the
  same output leaves the first result first, and readers return that one (C51).
* sort_arpa: two blank lines between sections make it take the heading for an n-gram (C52); values are printed with
  `std::to_string`, six decimals, so other values change (C52 needs an exact round trip).
* sort_grams writes plain text, while the readers of n-gram files expect gzip (the user has to compress the files in between).
* ARPA reader: loops forever at the end of a truncated file; needs exactly one blank line before `\\end\\` (C43).
* Count files: announcing more lines than present repeats the last record; counts overflow silently (C41).
* Serialization: hash functions that are never built (orders without long ranges) are saved uninitialised (answers unaffected,
  C36); `load` does not check the stream: a file that was cut short makes every load read beyond its end (C63), which the programs do not report.
* print_stats: the total of the grams counts 81 bytes (57 with `uniform_pef_sequence`) for the grams of the first order, and for backoff tries the total of the ranks
  counts 24 bytes for its ranks; neither is in the file, so the totals printed exceed the file's bytes by that much (C54).  For hash
  models the bytes of the keys "per gram" are divided by the number of n-grams twice (`C54_keys_per_gram_defect`).
* An `ef_sequence` built from no values with universe u takes one bit for each number up to u (`C56_empty_sequence_defect`).
* print_stats: the map of occurrences has 32-bit keys and values, and its end iterator is kept across insertions (formally
  invalid after a rehash).
* The library's own tests (C57): test_uniform_pef_sequence aborts for 64 values or fewer when the first of several ranges has two or
  more values; test_compact_vector never ends from 2^32 values on (32-bit loop counter); test_hash_compact_vector sets the values in
  order, so that it passes even for the widths at which `set` overwrites its neighbours (C09).
* The trie builders check the order of their input only in part (C60): a backoff trie accepts an n-gram whose prefix is not listed and never uses its probability; an n-gram listed twice is accepted and its second count lost;
  without remapping an n-gram whose last word is not in the vocabulary is accepted and then not found; with remapping an n-gram whose
  context begins no listed n-gram is accepted, or makes the builder read beyond its bits; and an unsorted file can make the
  Elias-Fano builder write outside its bit vector before it throws.
* The Python module loads every file as one of two fixed classes (ef_trie_IC_ranks_count_lm, ef_trie_prob_lm) without comparing the
  type in the header: a remapped trie is loaded and answers wrongly without an error (C47_python_remapped_defect,
  C61_remapped_scores_defect).  A constructor whose argument is not a string leaves a null pointer that the next method call
  dereferences; a file that does not open ends the interpreter (an exception through C code); calling `__init__` again leaks (C61).
* A hash-table model looks a context up as the bytes between the first byte of its oldest word and the last byte of the new one: words
  that a caller keeps in separate places are scored as other words, or memory outside the text is read (C30_mph_scattered_words_defect).
* `trie_count_lm::lookup` keeps the word ids of its query in a static array (and the mapper the parents' ids in another) and takes no lock: two threads that look up in any models of the class at the same time can get the count of another n-gram, or `not_found` for a stored one (`C62_concurrent_lookups_defect`). Look-ups that take turns are right. In tries over `uniform_pef_sequence` also the sequences hold shared state, the enumerator `e`: overlapping searches, also of `score`, can miss a stored n-gram (`C62_pef_overlapping_searches_defect`).
* `score_corpus` adds up its totals in `float`s: from some tens of millions of sentences on the total stops changing (of a repeated sentence it never goes below 2^26 times its score, `C65_long_text_total_stops_defect`), while the number of words goes on growing; the perplexity printed for such a text is too small. Texts of up to some hundred thousand sentences are fine (C65).
* The perplexity excluding OOVs is computed from the difference of two `float` totals that both contain the unknown words: with 2^21 one-word lines of unknown words (log-probability -64) and one known word of log-probability -2, `score` prints 1 instead of 100 (`C68_known_words_lost_defect`). For an empty corpus file `score` prints a perplexity of 0/0 (NaN); this is outside the model.
* `build_trie` and `build_hash` check the order and pass it on, with the bits, as `uint8_t`: numbers from 256 on are taken modulo 256, so `build_trie ef_trie 259 count` builds a model of order 3 (`C69_large_numbers_wrap_defect`). Without `--arpa`, `prob_backoff` models are built from a null file name (`C69_no_arpa_defect`).
* The file of a count model depends on the standard library (the order in which `std::unordered_map` is traversed and `std::sort` leaves equal elements in) as soon as two counts of an order occur equally often, which is the rule for real data (`C70_hash_ties_defect`, `C70_trie_ties_defect`); the answers do not. A `fast_ef_sequence` without long ranges writes an uninitialised `hash_compact_vector` into the file, so that two runs of one binary may write different files (`C70_uninitialised_defect`).
* `bit_vector_builder` keeps a raw pointer to its last word that is only correct after some operations: `reserve` in the middle of a word (when the vector moves), `resize` to a size that is not a multiple of 64, the implicit copy constructor and `append` of a builder to itself leave it stale or overrun the vector; later bits are lost, go to another builder or to freed memory (`C71_reserve_defect`, `C71_resize_defect`, `C71_resize_smaller_defect`, `C71_copy_defect`, `C71_self_append_defect`).  The sequences of the library call `reserve` on empty builders only and never do the rest.
* The builder of hash models with backoffs ignores the answer of `grams_probs_pool::append`: if the n-grams of some order have more bytes than 80% of the memory, it drops those that do not fit and reads past the end of the vector of those it kept (`C72_backoff_builder_defect`). The builder of hash count models throws instead (C72).
* The containers do not check the product of the number of entries and their width: from 2^64 bits on (2^58 values of 64 bits, 2^57 entries of a hash table of 64-bit keys and values) they are built without an error and have too few words (`C74_compact_vector_too_large_defect`, `C74_hash_compact_vector_too_large_defect`, `C74_bit_vector_builder_too_large_defect`). The tools never reach these sizes.

## Trusted base

* Lean 4.33.0's kernel. Axioms of the property theorems: at most `propext`, `Classical.choice`, `Quot.sound` (Lean's
  standard three); no axiom is added, no `native_decide`, `bv_decide` or compiled evaluation.
* The reading of the C++ code: definitions are a hand translation, function by function.
* External code, entering the theorems as parameters with these assumptions only:
  * essentials: `words_for` is the ceiling of n/64, `save_pod` / `save_vec` write and `load_*` read back the bytes of
    plain values and vectors (little-endian).
  * emphf: any three hash functions; a peeling order given when one exists; its hashers read back what they write.
  * `std::sort` returns a sorted permutation; `std::lower_bound`, `std::accumulate` as their C++ definition.
  * iostreams / zlib deliver the bytes of the file; `strtod` is any function of the bytes.
  * `float` / `double`: IEEE 754 rounding as in Floats.lean; class `FloatArith` states the laws used and both instances
    (exact rationals, binary32 with binary64 sums) are proved. Infinities and NaN are outside the model, and -0 = 0.
    `pow` and the division by the number of words in `score` are taken as exact (C68).
* Memory is large enough (`new` and `malloc` succeed) and no size reaches 2^64.
