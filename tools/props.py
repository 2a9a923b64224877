import json
P=[]
def p(title,statement,quant,why,anchors):
    P.append(dict(id="C%02d"%(len(P)+1),title=title,statement=statement,quantifier=quant,why_tests_cant=why,anchors=anchors))
p("compact_vector stores every value losslessly",
  "Building a compact_vector from any sequence of values that fit in the chosen width (1..64 bits), by push_back or by build-from-iterator, gives a vector of the same length whose operator[] returns exactly the i-th value, without reading or writing outside the allocated words.",
  "every width 1..64, every sequence of values below 2^width, every index",
  "The values straddle 64-bit words in a width- and index-dependent way; a test samples a few widths and lengths only.",
  ["include/vectors/compact_vector.hpp: compact_vector::builder::push_back, builder::build, operator[]"])
p("compact_vector builder set is a per-index update",
  "After any history of set(i,v) calls on a builder, in any order and with overwriting, entry i is the last value written to it (0 if never written); no set changes another entry.",
  "every width 1..64, every size, every finite history of set calls",
  "Interference between neighbouring entries depends on the bit offset and on the history; histories are unbounded.",
  ["include/vectors/compact_vector.hpp: builder::set, operator[]"])
p("compact_vector iterator equals random access",
  "Iterating a compact_vector from any start index and dereferencing once per step yields exactly operator[](start), operator[](start+1), ... up to the end.",
  "every vector, every start index, every number of steps",
  "The iterator keeps its own bit buffer and word position; agreement must hold for all offsets and run lengths.",
  ["include/vectors/compact_vector.hpp: compact_vector::enumerator/iterator, begin, at"])
p("compact_vector::access agrees with operator[] for widths up to 57",
  "For width <= 57 access(i) returns the same value as operator[](i) whatever bytes lie behind the end of the storage; for wider vectors it may not (a witness exists).",
  "every vector of width <= 57, every index, every content of the over-read bytes",
  "The result would depend on memory after the buffer, which a test cannot enumerate.",
  ["include/vectors/compact_vector.hpp: access"])
p("bit_vector_builder refines a list of bits",
  "After any history of append_bits, zero_extend, append and set/set_bits within the current size on a builder created with any size and initial bit, the built bit_vector has exactly the bits of the list obtained by doing the same edits on a plain list of booleans: size(), operator[], get_bits and get_word64 agree, and no operation leaves the allocated words.",
  "every finite history of builder operations, every position and length <= 64",
  "Unbounded histories with a cached current-word pointer; tests only sample.",
  ["include/vectors/bit_vector.hpp: bit_vector_builder, bit_vector::operator[], get_bits, get_word"])
p("bit_vector scanning finds the right set bit",
  "predecessor1(pos) returns the position of the last set bit at or before pos; a unary iterator started at pos enumerates exactly the positions of the set bits >= pos in increasing order; skip(k) moves over k ones, skip0(k) over k zeros, and any mixture of next, skip and skip0 on one iterator visits the positions a cursor over the bits visits (a one returned by next no longer counts as a one).",
  "every bit vector, every start position, every sequence of calls whose bits exist",
  "Word boundaries and empty words in between occur in unboundedly many patterns.",
  ["include/vectors/bit_vector.hpp: predecessor1, unary_iterator::next, skip, bits_iterator"])
p("Gamma and delta codes are self-delimiting and lossless",
  "Writing any sequence of integers n < 2^64-1 with write_gamma / write_delta one after the other and reading them back with read_gamma / read_delta from the same start position yields the same sequence and leaves the reader at the end of the last code.",
  "every finite sequence of 64-bit integers except 2^64-1, every starting alignment",
  "Self-delimitation must hold for all sequences and alignments.",
  ["include/sequences/integer_codes.hpp: write_gamma, read_gamma, write_delta, read_delta", "include/vectors/bit_vector.hpp: bits_iterator"])
p("compact_triplets_vector stores triplets losslessly",
  "For any three field widths, pushing triplets of values that fit the widths and building gives back by operator[] exactly the i-th triplet, and the vector takes exactly the three widths (at least one bit each) for each triplet.",
  "every three widths in 1..64, every sequence of fitting triplets, every index",
  "Three fields of arbitrary width straddle words in all alignments.",
  ["include/vectors/compact_triplets_vector.hpp"])
p("hash_compact_vector stores (hash key, value) pairs losslessly",
  "A hash_compact_vector with 64-bit keys returns for entry i exactly the key and value last written by set(i, key, value), for any history of sets; so does one with 32-bit keys and values of up to 32 or 64 bits; with 32-bit keys and values of 33..63 bits writing an entry clears bits of the next one (witness), and nothing is lost if the entries are written in order.",
  "every value width, every size, every history of set calls",
  "Interference depends on offset, width and history order.",
  ["include/vectors/hash_compact_vector.hpp"])
p("Bit primitives are exact on every word",
  "popcount counts the set bits, msb/lsb return the highest/lowest set bit position, ceil_log2 and floor_log2 are exact, select_in_word(x,k) is the position of the k-th set bit.",
  "all 2^64 words and all k below the popcount",
  "2^64 inputs cannot be enumerated.",
  ["include/utils/util.hpp: msb, lsb, ceil_log2, floor_log2, popcount, select_in_word, byte_counts, bytes_sum"])
p("darray select is exact",
  "For every bit vector, darray(bv).select(bv, i) is the position of the i-th (0-based) set bit (resp. clear bit for darray0), for dense, sparse and mixed blocks alike.",
  "every bit vector, every rank below the number of ones",
  "Sparse/dense block switch at spans of 65536 and 1024-one blocks, unbounded vectors.",
  ["include/sequences/darray.hpp: darray, select"])
p("ef_sequence returns the sequence it was built from",
  "Building an ef_sequence from a non-decreasing sequence bounded by its universe succeeds, and operator[](i), size() and iteration return the input; an unsorted input is rejected by an exception.",
  "every non-decreasing sequence of 64-bit integers, every index",
  "The number of low bits depends on the universe/size ratio; all ratios and gaps matter.",
  ["include/sequences/ef_sequence.hpp"])
p("fast_ef_sequence returns the values it was built from",
  "A fast_ef_sequence built from grouped (per-range sorted) ids and their range boundaries gives back by operator[] the stored absolute values and by random access the original id of every position.",
  "every grouping into ranges, every sorted id list per range, every position",
  "Prefix sums across groups with arbitrary empty groups; unbounded.",
  ["include/sequences/fast_ef_sequence.hpp: write, operator[]"])
p("fast_ef_sequence::find is exact on non-empty ranges",
  "For a non-empty range [b,e), find returns the unique position in [b,e) whose id is the one searched if it is there and the not-found value otherwise; on an empty range the release build may return a position outside the range (witness).",
  "every sequence, every non-empty range of it, every searched id",
  "Absence must be reported for all ids not present; the search mixes sampled tree, binary search and linear scan by range length.",
  ["include/sequences/fast_ef_sequence.hpp: find"])
p("indexed_codewords_sequence is lossless",
  "Building an indexed_codewords_sequence from any sequence of integers (below 2^64-2) and reading operator[](i) or iterating returns the same integers.",
  "every finite sequence of values, every index",
  "Codeword lengths vary with the values; the index of starting positions must delimit each.",
  ["include/sequences/indexed_codewords_sequence.hpp"])
p("prefix_summed_sequence returns the values it was built from",
  "A prefix_summed_sequence over ef_sequence, built from any non-empty sequence of values whose sum fits in 64 bits, returns by operator[](i) exactly the i-th value, although only the prefix sums are stored.",
  "every non-empty sequence of values whose sum is below 2^64",
  "Unbounded sequences and sums; the differences go through wrapping arithmetic and the Elias-Fano encoding.",
  ["include/sequences/prefix_summed_sequence.hpp"])
p("uniform_pef_sequence random access is exact and history independent",
  "operator[](i) of a uniform partitioned Elias-Fano sequence (values below 2^57, and below 2^31-1 when they fit in one partition: beyond, the code truncates the universe to an int, witness) equals the i-th input value, whatever valid accesses and searches were performed before on the same object; and the iterator (begin, then next) yields the input from its first value to its last.",
  "every monotone input, every history of accesses and finds, every index",
  "The object caches a current partition; correctness must hold for every history.",
  ["include/sequences/uniform_pef_sequence.hpp: operator[], find, switch_partition", "include/sequences/compact_elias_fano.hpp"])
p("uniform_pef_sequence::find locates every present id",
  "For a range of a partitioned EF sequence built from strictly increasing ids per range and an id stored in the range, find returns its position, after any searches on the same object, and after any accesses too unless the range is the first of a single partition; an absent non-zero id is answered not-found if the range has a greater id, and otherwise not-found or with a position outside the range. Witnesses: equal non-zero values in one partition, a search after an access, absent ids found in another range, id 0, a read past the upper bounds.",
  "every sequence, every range, every id present in it",
  "Partition upper bounds, next_geq skipping, and cached cursor state.",
  ["include/sequences/uniform_pef_sequence.hpp: find, next_geq", "include/sequences/compact_elias_fano.hpp: next_geq"])
p("Circular context buffer returns the last pushed words",
  "Iterating a circular buffer of capacity c backwards after any sequence of push_back calls yields the pushed items in reverse order, up to c of them; no access leaves the buffer.",
  "every capacity, every sequence of pushes",
  "Wrap-around after arbitrarily many pushes.",
  ["include/utils/circular_buffer.hpp", "include/state.hpp"])
p("Value collections: access inverts rank",
  "For a sequence_collection built from any multiset of values, rank(v) is defined for each value v seen and access(rank(v)) = v; ranks are below size and more frequent values get no larger ranks.",
  "every multiset of values per order",
  "All value multisets and all frequencies.",
  ["include/sequences/sequence_collections.hpp: sequence_collection::builder, rank, access", "include/trie_count_lm.hpp"])
p("Quantiser is well-behaved",
  "The quantised collection maps every value to a rank inside the codebook, monotonically, to a nearest centroid; centroids are sorted and between the minimum and maximum of the data; an exactly-zero backoff is reproduced exactly as zero.",
  "every multiset of real values, every number of bits",
  "All data sets and bin counts.",
  ["include/sequences/sequence_collections.hpp: quantized_sequence_collection"])
p("The minimal perfect hash is a bijection onto [0,n)",
  "The mphf built from n distinct keys maps them to n distinct values in [0,n).",
  "every key set for which the peeling succeeds",
  "All key sets; collisions are rare events that tests miss.",
  ["include/utils/mphf.hpp", "external/emphf"])
p("Hash tables return the stored value for each key",
  "single/double valued and uint mph tables: looking up a key inserted at build time returns exactly its stored value(s); a key not inserted returns not-found unless its hash key coincides with that of the slot it is mapped to.",
  "every key/value set, every looked-up key",
  "All sets and all absent keys.",
  ["include/utils/mph_tables.hpp"])
p("Trie count model returns the count of every stored n-gram",
  "A trie count model built from sorted, prefix-closed n-gram files returns for each stored n-gram (with or without context remapping of order 1 or 2) the count in the file.",
  "every model, order, and stored n-gram",
  "All n-gram sets; pointers, ranks and remapping compose over levels.",
  ["include/trie_count_lm.hpp: build, lookup", "include/mappers.hpp", "include/vectors/sorted_array.hpp"])
p("Trie count model reports absent n-grams as absent",
  "A trie count lookup of an n-gram not stored returns not-found when every looked-up prefix node has children; with an empty children range or an over-long query the released code misbehaves (witnesses).",
  "every model, every absent n-gram",
  "All absent queries.",
  ["include/trie_count_lm.hpp: lookup", "include/mappers.hpp: map_query"])
p("Hash count model returns the count of every stored n-gram",
  "An mph count model returns for each n-gram of its input the count in the file.",
  "every input set with a valid mphf, every stored n-gram",
  "All sets.",
  ["include/mph_count_lm.hpp"])
p("Trie backoff score is the ARPA backoff score",
  "trie_prob_lm::score for the next word in any state equals the standard ARPA backoff recursion: probability of the longest matching n-gram plus the backoffs of the longer contexts.",
  "every well-formed model, every word history",
  "All histories and models; the incremental state must summarise the history exactly.",
  ["include/trie_prob_lm.hpp: score", "include/state.hpp"])
p("Hash backoff score is the ARPA backoff score",
  "mph_prob_lm::score equals the same backoff recursion as the trie, so both models give equal scores on the same ARPA data.",
  "every well-formed model without hash collisions, every word history",
  "All histories and models.",
  ["include/mph_prob_lm.hpp: score"])
p("Scoring state stays within bounds",
  "During scoring of any word sequence, the state length never exceeds order-1, every array index stays within the arrays, and uninitialised entries are never read into a score.",
  "every model and every word sequence, including OOV words",
  "Unbounded sequences.",
  ["include/state.hpp", "include/trie_prob_lm.hpp: score", "include/mph_prob_lm.hpp: score"])
p("Sentence scores are independent of earlier sentences",
  "The total score, token and OOV counts of a text are sums of per-sentence contributions that depend on that sentence only. Several states can be used with one model (trie or hash table) in any interleaving of score and init calls: the answers for one state depend on its own calls only. For a hash-table model this requires that the words given to a state since its init lie one after the other, separated by one byte, in one piece of memory (the score program's sentences do); otherwise the answer is wrong or the program reads outside the text.",
  "every text, every order of sentences, every interleaving of calls on any number of states",
  "All histories.",
  ["include/score.hpp", "src/score.cpp", "include/state.hpp: init"])
p("Tokenisation splits exactly at separators",
  "Forward and backward byte-range iterators over an n-gram yield exactly its space-separated words, in order and reverse order; text_lines yields the words of a line.",
  "every byte string",
  "All strings.",
  ["include/utils/iterators.hpp", "include/utils/util.hpp: bytes"])
p("n-gram prefix and suffix extraction",
  "predecessor/suffix/next/prev on byte ranges return the n-gram without its last/first word for every n-gram of two or more words.",
  "every byte string of at least two words",
  "All strings.",
  ["include/utils/util.hpp: bytes::predecessor, suffix, to, back_to, next, prev"])
p("n-gram comparators are total orders consistent with ids",
  "prefix_order and suffix_order comparators on same-order in-vocabulary n-grams coincide with the lexicographic order of word ids (left-to-right, right-to-left); they are strict weak orders.",
  "every vocabulary map, all n-grams of equal length",
  "All pairs and triples.",
  ["include/utils/util_types.hpp", "include/sorters/sorter_common.hpp", "include/utils/util.hpp: comparator"])
p("External sort outputs a sorted permutation of its input",
  "Merging sorted batches outputs every record once in comparator order; the driver loops however lose the last record when exactly one is left for a batch (witness).",
  "every input file, every batch size",
  "All inputs and batch boundaries.",
  ["include/sorters/sorter.hpp", "src/sort_grams.cpp", "src/sort_arpa.cpp"])
p("Binary header identifies the model type",
  "For every valid build configuration the header written by the builder is parsed back to the same data-structure type, and different configurations give different headers.",
  "all valid build parameter combinations",
  "Finite but combined over all 2^8 header values and parameters; loading a wrong type is silent corruption.",
  ["include/utils/binary_header.hpp"])
p("Save and load are inverse",
  "Loading what save wrote yields an equal structure and consumes exactly the bytes written, for each vector, sequence and model type; queries made before saving do not change the saved bytes, and a loaded trie saved again writes the same file.",
  "every structure value, every trailing bytes",
  "All values.",
  ["save/load in include/vectors/*.hpp, include/sequences/*.hpp, include/utils/mph_tables.hpp, include/trie_count_lm.hpp, include/trie_prob_lm.hpp, include/mph_count_lm.hpp, include/mph_prob_lm.hpp"])
p("Packing two floats and unpacking returns them",
  "pack(p,b) followed by unpack returns exactly the two 32-bit patterns.",
  "all 2^64 pairs of 32-bit patterns",
  "2^64 inputs.",
  ["include/utils/util.hpp: pack, unpack"])
p("Trie pointers delimit the children of each node",
  "After building, the pointer range of the i-th node of a level is exactly the block of the next level's n-grams having it as prefix; ranges are disjoint, ordered and cover the level.",
  "every sorted prefix-closed pair of levels",
  "All n-gram sets incl. nodes without children.",
  ["include/trie_count_lm.hpp: builder", "include/sequences/pointer_sequence.hpp", "include/vectors/sorted_array.hpp"])
p("Binary search locates present elements",
  "util::binary_search over a sorted array returns the index of the searched element when present; for absent elements below the minimum it reads out of bounds (witness).",
  "every sorted array, every present element",
  "All sizes.",
  ["include/utils/util.hpp: binary_search"])
p("Gram pools keep every appended gram until full",
  "Appending n-grams to a pool of fixed capacity never overflows it, returns false when there is no room, and the pool's index enumerates exactly the non-empty appended grams.",
  "every history of appends, every capacity",
  "All histories.",
  ["include/utils/pools.hpp"])
p("Count line parsing",
  "Parsing a line 'gram TAB count' yields the gram bytes before the tab and the decimal count after it; white space before the count is skipped.",
  "every line",
  "All strings.",
  ["include/utils/parsers.hpp"])
p("bits_iterator: any mixture of reads follows the bits",
  "On a bits_iterator, any sequence of get_bits(len) with len < 64 and skip_zeros() calls from any position returns exactly what reading the same bits of a plain list gives; after get_bits(64) a skip_zeros() may be wrong because the stale buffer is kept (witness).",
  "every bit vector, start position and finite sequence of reads that stays inside the vector",
  "The reader buffers 64 bits at unaligned positions, so correctness depends on the whole history of reads.",
  ["include/vectors/bit_vector.hpp: bits_iterator::get_bits, skip_zeros, fill_buf"])
p("An ARPA file is read as written",
  "For every well-formed ARPA file (any number of blank lines before \\data\\ and between sections, one before \\end\\), the parser accepts the header, returns for each order exactly the probabilities and backoffs of its lines in order (positive log-probabilities clamped to 0, missing backoffs 0), and the iterator opened at the recorded offset of a section returns exactly the records of that section. Building a model of smaller order than the file aborts, and a file of blank lines makes the parser loop for ever (witnesses).",
  "every well-formed ARPA text: any order, any numbers of lines, any words and numbers",
  "Offsets and line structure depend on the whole text; files are unbounded.",
  ["include/utils/parsers.hpp: arpa_parser, arpa_iterator", "include/utils/util.hpp: parse_prob_line"])
p("From the bytes of the files to the answers",
  "Building a model from the text of its input files (count files, or an ARPA file) succeeds, and querying it with strings gives the numbers in the files: the count of each listed n-gram, resp. the score the ARPA back-off rule gives to every sentence with the (quantised) values of the file.",
  "every well-formed set of files and every listed n-gram or sentence",
  "Composes parsing, tokenisation, building and lookup; all inputs.",
  ["include/trie_count_lm.hpp: builder, lookup", "include/mph_count_lm.hpp: builder, lookup", "include/trie_prob_lm.hpp: builder, score", "include/mph_prob_lm.hpp: builder, score", "include/utils/parsers.hpp"])
p("Unsupported orders are rejected",
  "Building any of the four models with an order outside 2..8, or a trie with a remapping order above 2, throws instead of producing a model, whatever the input files.",
  "every order, remapping order and input",
  "All orders and inputs; the check must come before any use of the order.",
  ["include/utils/util.hpp: check_order, check_remapping_order", "include/trie_count_lm.hpp", "include/trie_prob_lm.hpp", "include/mph_count_lm.hpp", "include/mph_prob_lm.hpp: builder constructors"])
p('The score tool reports the totals of the corpus file',
  'For every ARPA file and every corpus file (one sentence per line), the tool `score` on the model built from the ARPA file reports: the number of tokens and sentences of the file, the number of unknown words, the total log10 probability (each sentence scored as if alone, words added in order, then sentences in order) and the part due to unknown words, as given by the ARPA model of the file; for tries and for hash models.',
  'every ARPA text, corpus text, vocabulary and quantisation',
  'Unbounded files; reading and scoring alternate and share one state over the whole corpus.',
  ['src/score.cpp: score_corpus', 'include/utils/iterators.hpp: text_lines', 'include/score.hpp: score', 'include/mph_prob_lm.hpp: score'])
p('The Python module returns the counts and scores of the files',
  'For the binary files of the two classes that the module loads (tries without context remapping; for counts with indexed-codewords ranks), `CountModel.lookup(s)` returns the count of every n-gram listed in the count files and 0 for absent n-grams (under the conditions of C25); `ProbModel.score_sentence(s, len(s))` returns the sum of the ARPA scores of the words of s and their number, whatever follows s in memory; `ProbModel.score_corpus(f)` returns the total over the sentences of the file and its number of words.',
  'every file, n-gram, sentence and corpus',
  'Unbounded inputs; the wrapper has its own loops and its own treatment of not_found.',
  ['python/tongrams.cpp: PyCountLM_lookup, PyProbLM_score_corpus, PyProbLM_score_sentence'])
p('Compact Elias-Fano sequences answer every session as a cursor over the list',
  'Any non-empty non-decreasing list of values smaller than the universe can be written with compact_elias_fano::write after whatever the bit vector builder already holds: what was there is kept, the encoding takes exactly bitsize(universe, n) bits, and an enumerator opened on it later (whatever was appended meanwhile) answers every sequence of move, next, next_geq and prev_value calls as a cursor over the list: move(p) gives value p (the universe at the end), next_geq(lb) stays on a value equal to lb and otherwise goes after the values smaller than lb, prev_value gives the value before the cursor. A list with a descent is refused with an exception.',
  'every list length (with or without sampled pointers), every universe up to 2^57, every content already in the builder and appended later, every session of calls',
  'Sampled pointers are only written for more than 256 values or 512 zeros; a wrong pointer, boundary or skip only shows on particular value distributions after particular earlier calls.',
  ['include/sequences/compact_elias_fano.hpp: compact_elias_fano::write, bitsize, offsets, enumerator::move, next, next_geq, prev_value, slow_move, slow_next_geq, pointer'])
p('Count tries over uniform_pef_sequence answer sessions of stored n-grams',
  "A count model whose grams, count ranks or both are stored in `uniform_pef_sequence` (which keeps a moving cursor between calls), once built, answers every list of lookups of stored n-grams, issued in any order and any number of times on the same object, with their exact counts, and of absent n-grams whose first missing word has a non-zero id smaller than that of a stored alternative (with remapping: also each missing window) with not-found; with fast_ef grams also absent n-grams under C25's conditions are reported not found, whatever was asked before.",
  'all input files (orders 2-8, remapping 0-2), all three kinds of ranks, every sequence of lookups, every evaluation order of the two accesses in prefix_summed_sequence, any memory after the arrays',
  'the answer of a lookup depends on the cursor left by all earlier lookups: tests try a few histories, the property is about all of them',
  ['include/lm_types.hpp', 'include/sequences/uniform_pef_sequence.hpp', 'include/sequences/prefix_summed_sequence.hpp', 'include/trie_count_lm.hpp', 'include/mappers.hpp', 'include/sorted_array.hpp'])
p('From text files to answers after saving and loading',
  'Running the whole pipeline - the text of the count files or of an ARPA file is parsed, a model is built, saved to a binary file with its header byte, and the file is read back by another program - gives a model that consumes exactly the bytes of the file and answers as the text says: every listed n-gram gets its count (from the command-line lookup, and from Python for the trie class the module loads), and a corpus scored with the score tool (and from Python, for unremapped tries) gets the totals of the (quantised) ARPA model; no intermediate value overflows the width it is stored with. For tries over uniform_pef_sequence this holds under the conditions of C49 and C55, and for any use of the model before it is saved.',
  'all well-formed count files / ARPA files, orders 2-8, all remapping orders, rank structures and quantisation bits the builders accept, 32- and 64-bit hashes, every corpus and query, any bytes left in uninitialised members that are saved',
  'The composition crosses every component; it needs that everything built from any input fits the fields it is saved in, which tests see only for a few sizes.',
  ['src/build_trie.cpp', 'src/build_mph.cpp', 'src/lookup_perf_test.cpp', 'src/score.cpp', 'python/tongrams.cpp', 'include/utils/util.hpp: save, load', 'include/trie_count_lm.hpp, trie_prob_lm.hpp, mph_count_lm.hpp, mph_prob_lm.hpp: builder, save, load'])
p('sort_grams sorts any n-gram file, text to text',
  'Given the text of a vocabulary file and of an n-gram file whose words are in the vocabulary, sort_grams appends to the output file the text of a count file that lists exactly the same n-grams with the same counts, in prefix order (by the positions of their words in the vocabulary), however small the memory that splits the input into batches and temporary files, provided the last batch has more than one n-gram. If each order is sorted so, the builder of count tries accepts the files and the trie returns every count.',
  'all vocabularies (< 2^57 words), all n-gram files with any number of lines and any counts below 2^64, every memory budget in which the n-grams fit, every std::sort that meets the C++ standard',
  'The result goes through batches, temporary text files and rounds of merges; a mistake shows only for particular splits of the input, and the property is about all orders of all files.',
  ['src/sort_grams.cpp: main', 'include/sorters/sorter.hpp: sorter::sort, write, merge, merge_batches', 'include/sorters/sorter_common.hpp: prefix comparator', 'include/utils/parsers.hpp: grams_counts_line_handler'])
p('sort_arpa sorts any section of an ARPA file, text to text',
  'Given the text of a vocabulary and a well-formed ARPA file with one blank line after each section, sort_arpa leaves in the output file the heading of the section and exactly its n-grams with their values as std::to_string prints them, in suffix order (last word first), for every memory that leaves a last batch of more than one n-gram. If printing loses no digits, the builder of backoff tries accepts the file put together from the sorted sections and its scores are those of the (quantised) original model.',
  'all vocabularies, all well-formed ARPA files (any number of sections and lines, any leading blank lines), every section, every memory budget, every std::sort, strtod and to_string with the stated round trip',
  'Same as for sort_grams, and the section has to be found by counting blank lines: whether it is depends on the layout of everything before it.',
  ['src/sort_arpa.cpp: main', 'include/sorters/sorter.hpp', 'include/utils/parsers.hpp: arpa_parser, prob_backoff_line_handler', 'include/trie_prob_lm.hpp: builder'])
p('print_stats reports the numbers of the input',
  'For a trie built from well-formed n-gram files (or ARPA sections), and for the same trie after saving it to a file and loading it, print_stats reports: the order; the number of n-grams; for counts the number of distinct counts of each order; for each order the number of n-grams, the number of pointers (one more than the n-grams, none for the last order), and about the extensions of its n-grams: how many have any, their total, the largest and smallest non-zero number of extensions, and the five largest in decreasing order; the last value of the stored sequence (the sum over the n-grams of the previous order of the id of the last extension); for orders 2 and 3 the conditional entropy sum over the n-grams of the previous order, and for order 2 the entropy sum over the words occurring as last word of a bigram, each with its number of occurrences.',
  'all well-formed inputs (for uniform_pef tries those that C49 and C55 cover), all orders, fast_ef and uniform_pef grams, all rank encodings of counts, remapping orders 0 to 2, any queries before, any logarithm function and any iteration order of the hash table',
  'the numbers come from iterators over compressed sequences whose internal cases depend on the data; a test compares a few corpora',
  ['include/utils/stats.cpp: sorted_array::print_stats, trie_count_lm::print_stats, trie_prob_lm::print_stats, topk_queue', 'src/print_stats.cpp'])
p("print_stats' numbers of bytes account for the whole file",
  'When print_stats loads a model file written by the builder, the total it prints is the length of the file, and the numbers of bytes it prints for the parts are the bytes of those parts in the file: for tries, per order, grams, ranks and pointers, and over all orders vocabulary and distinct values (or probabilities and backoffs); for hash models the tables and values, with keys = one hash integer per n-gram, keys + ranks = tables + values, and keys + ranks + functions = the file, without wrap-around. Adding up everything printed, the bytes of the hash functions (about which tries print nothing) and the one-byte numbers and vector lengths gives the length of the file exactly, except that the totals of tries count 81 bytes (57 for uniform_pef grams) for the grams of the first order, and backoff tries 24 bytes for its ranks, which are not in the file. The percentages and the numbers per n-gram are relative to the file and the number of n-grams of the input.',
  'all well-formed inputs (for uniform_pef tries those that C49 and C55 cover), all orders, fast_ef and uniform_pef grams, all rank encodings of counts, remapping orders 0 to 2, both hash widths, any queries before saving or printing, any contents of the parts that are never built',
  'an accounting identity over every size of every nested structure; a test checks one file',
  ['include/utils/stats.cpp: mph_count_lm::print_stats, mph_prob_lm::print_stats, trie_count_lm::print_stats, trie_prob_lm::print_stats', 'src/print_stats.cpp', 'bytes()/data_bytes() of every container', 'essentials::save / load'])
p('Partitioned Elias-Fano backoff tries score correctly, with any interleaving of states',
  'A backoff trie whose gram sequences are uniform_pef_sequence (pef_trie_prob_lm, pef_rtrie_prob_lm) builds from every well-formed ARPA file, and although every search changes the model, each word scored, in any session that uses any number of states of the model in any order and resets them at any time, gets the backoff score of the word after the history of its own state (as C27), and score_corpus reports the totals of the text; for texts whose absent n-grams are searched with an id that is not 0 and smaller than that of another word listed there (the others get wrong scores: a finding).',
  'all well-formed ARPA data of orders 2 to 8, remapping orders 0 to 2, all sessions of score and init calls on any number of states, all texts of recognised words, any memory after the arrays',
  'the searches share one mutable enumerator per order: correctness is over all interleavings and histories',
  ['include/trie_prob_lm.hpp: builder', 'include/score.hpp: trie_prob_lm::score', 'include/sequences/uniform_pef_sequence.hpp: find', 'include/lm_types.hpp: pef_trie_prob_lm, pef_rtrie_prob_lm', 'src/score.cpp: score_corpus'])
p('The sizes of the saved structures are bounded',
  'What is saved to a file stays within the bounds the compressed representations promise: an Elias-Fano sequence of n>0 sorted values up to u takes at most n*(log2(u/n)+7) bits plus a constant number of bytes; a prefix-summed sequence, the same with the sum as u; an indexed codewords sequence 3*log2(v+2)+1 bits for each value v; a compact vector log2(max)+1 bits for each value; a fast Elias-Fano sequence of n grams up to M at most n*(log2 M+9) bits and the hash function over its long ranges; a partitioned Elias-Fano sequence of n values up to u at most n*(log2(u/n)+8) bits and a constant, also after any queries. Hence a hash count model takes for each n-gram the hash and log2 of the number of distinct counts plus 1 bits, each distinct count once, and the hash functions; and a count trie, for each order, the words, ranks, pointers and distinct counts with these bounds, the vocabulary and the hash functions, and at most 512 bytes more for each order; and backoff models, in place of the counts, two floats for each word, the numbers of the quantised probability and backoff (pb and bb bits) for each longer n-gram, and the codebooks of 2^pb and 2^bb floats for each order.',
  'all sorted value lists, all count files and ARPA sections of orders 2 to 8, remapping orders 0 to 2, all gram and rank encodings, all lookups between the build and the save, all quantisation bits, any hash functions',
  'bounds on the size are for all inputs; tests measure single files',
  ['include/sequences/ef_sequence.hpp: build, save', 'include/sequences/fast_ef_sequence.hpp: build, save', 'include/sequences/indexed_codewords_sequence.hpp: build, save', 'include/sequences/prefix_summed_sequence.hpp: build, save', 'include/vectors/compact_vector.hpp: build, save', 'include/sequences/darray.hpp: build', 'include/mph_count_lm.hpp: save', 'include/trie_count_lm.hpp: save'])
p("The library's own test programs pass for every draw of their generators",
  'Each of the sequence and vector test programs draws random data, builds a structure and aborts on any answer that differs from what was drawn. For every draw (not only the seeds that were run) test_compact_vector (1 to 2^32-1 values of width 1..64), test_hash_compact_vector (64-bit keys or 32-bit keys, values of width 1..64) and test_fast_ef_sequence (at most one long range, or the hash function built) end without aborting and without undefined behaviour, and so does test_uniform_pef_sequence with more than 64 values, or a first range that has one value or all of them.',
  'all draws of the generators, all numbers of values and maximum range lengths within the stated limits',
  'a run of a randomised test covers one draw; the claim is about all of them',
  ['test/test_compact_vector.cpp: main', 'test/test_hash_compact_vector.cpp: main', 'test/test_fast_ef_sequence.cpp: main', 'test/test_uniform_pef_sequence.cpp: main', 'include/utils/util.hpp: check'])
p('test_count_model and lookup_perf_test report exactly what the model in the file answers',
  "test_count_model, on the binary file of a count model and a folder of text files, ends without aborting exactly if every n-gram of the text files is either not found or gets its count, and it then reports the lines that are not found, and no others. lookup_perf_test looks up, in each run and in order, what precedes the first tab of each line of the query file. Hence, for a count model of any type built from text files and saved, test_count_model on the same files prints the bytes of the file and the number of lines of the text files and finds every n-gram, and lookup_perf_test gets in every run the count of each listed query (and not-found for the absent ones that C25 and C49 cover), even where look-ups change the model's caches.",
  'all count files, orders, remapping orders, rank and gram sequences, hash functions, query files, numbers of runs, and memory contents after the arrays',
  'a run of the program checks one model and one folder; that the program accepts exactly the right models, and that every model the builder writes is accepted, is about all of them',
  ['test/test_count_model.cpp: test, main', 'src/lookup_perf_test.cpp: perf_test, main', 'include/utils/pools.hpp: strings_pool', 'include/utils/parsers.hpp: grams_gzparser', 'include/trie_count_lm.hpp: lookup, size, order', 'include/mph_count_lm.hpp: lookup, size, order'])
p('Builds with the POPCNT and PDEP instructions compute what the portable build computes',
  'util::popcount with TONGRAMS_USE_POPCNT returns, for every 64-bit word, what the portable code returns. util::select_in_word with TONGRAMS_USE_PDEP returns, for every word and every k below the number of its ones, the position of the one with exactly k ones below it, as the portable code does; and whenever the portable code has defined behaviour, the instructions give the same result, so that nothing a user of the portable build can observe changes.',
  'all 64-bit words and all k below 2^56 (in particular all k below 64)',
  'there are 2^64 words, and a test runs on one build only',
  ['include/utils/util.hpp: popcount, select64_pdep_tzcnt, select_in_word', 'include/vectors/bit_vector.hpp: unary_iterator'])
p('A trie that could be built was built from sorted and complete files',
  'The construction of a trie is its own check of the order of its input. If the builder of a count trie (trie_count_lm::builder, without or with context remapping) or of a backoff trie (trie_prob_lm::builder) over fast_ef_sequence ends normally, then there are 2 to 8 orders, and every file up to the remapped orders (all files, without remapping) is non-empty, sorted by the vocabulary ids of its words, and complete: the first n-1 words of each n-gram (for ARPA files the last n-1) are listed in the file of order n-1. For count files that list no n-gram twice the converse holds too, with and without remapping: the builder succeeds, and the contexts that remapping looks up are listed, exactly if all files are sorted and complete, and the model then returns the count of every listed n-gram. So an unsorted or incomplete count file (with remapping: whose contexts are listed) is never turned into a model. For ARPA sections that list no n-gram twice and list the prefixes of every n-gram, the builder of backoff tries succeeds, with any remapping order, exactly if the sections are sorted and complete, and the model then gives every sentence the scores of the listed (quantised) model.',
  'all vocabularies, all n-gram files of words of the vocabulary in any order (sorted or not, complete or not), remapping orders 0 to 2, rank sequences and hash functions; for the scores, all quantisation bits the quantiser accepts for the sections',
  'the claim ranges over all wrongly ordered or incomplete inputs; tests use one sorted sample',
  ['include/trie_count_lm.hpp: builder, build_ngrams', 'include/trie_prob_lm.hpp: builder, build_ngrams', 'include/sequences/fast_ef_sequence.hpp: build', 'include/sequences/ef_sequence.hpp: build'])
p('A Python object answers every sequence of calls like the files it was built from',
  'An object of the Python module made by `tongrams.CountModel(file)` or `tongrams.ProbModel(file)` from the binary file of an unremapped trie of the class that the module loads returns, for every further sequence of calls on it - lookups or scores, calls with arguments of the wrong type (which return None), the constructor called again with the same file or with an argument that is not a string - the counts and scores of the text files the model was built from; the answers do not depend on the order or the number of the calls. An object whose constructor was called once frees its model.',
  'all well-formed count and ARPA files, every header byte build_trie writes, every sequence of calls, any bytes after the sentence in memory and any over-read word',
  'the set of call sequences is infinite, and the object keeps the mutable scoring state between them',
  ['python/tongrams.cpp: load_from_binary, PyCountLM_init, PyProbLM_init, PyCountLM_new, PyProbLM_new, PyCountLM_dealloc, PyProbLM_dealloc, PyCountLM_lookup, PyProbLM_score_corpus, PyProbLM_score_sentence', 'include/lm_types.hpp'])
p('Lookups in count tries do not influence each other unless they overlap',
  "The result of a count trie's lookup does not depend on what earlier lookups - in the same or in other models - left in the static arrays that lookups work in. Threads that take turns (each starts a lookup only when no other thread is in one) get, under every schedule, the results their lookups have on their own, in order, without undefined behaviour, and under every fair schedule all of them end. The library takes no lock: lookups that overlap can return the count of another n-gram or miss a stored one. The same holds for searches in one partitioned Elias-Fano sequence, whose position is shared by all threads: in turns they find every stored id, overlapping they can miss one.",
  'every number of threads, every list of lookups of every thread in any models (with or without remapping), every schedule, and any previous contents of the static arrays',
  'the interleavings of threads are infinitely many, and races show in tests only by chance',
  ['include/trie_count_lm.hpp: lookup, word_ids', 'include/mappers.hpp: identity_mapper::map_query, sorted_array_mapper::map_query, sorted_array_mapper::map_id, parent_ids'])
p('A model file that was cut short is never read as complete',
  "If the program that writes a model is stopped at any point, or only a part of its file is copied, loading what is left never ends inside it: for every proper beginning of the file - also the empty one - the load of every model class reads beyond the end of the stream (so that util::load's tellg() is -1; it does not throw). The complete file is loaded with exactly the answers of the model and the number of its bytes, and bytes that follow it are ignored.",
  'every model of every class built from well-formed input, every header byte, and every point at which the file is cut',
  'a file has as many cut points as bytes, and models are unbounded; no checksum or length in the file would make a cut visible',
  ['include/utils/util.hpp: save, load', 'include/trie_count_lm.hpp: save, load', 'include/trie_prob_lm.hpp: save, load', 'include/mph_count_lm.hpp: save, load', 'include/mph_prob_lm.hpp: save, load', 'include/vectors/sorted_array.hpp: save, load', 'include/sequences/uniform_pef_sequence.hpp: save, load', 'include/sequences/fast_ef_sequence.hpp: save, load', 'include/utils/mph_tables.hpp: save, load'])
p('The choice of the data structure does not change the answers',
  'One ARPA file (its lines in any order that the respective builder accepts) and one pair of quantisation parameters determine one model: hash models with keys of 4 or 8 bytes, tries with Elias-Fano and tries with partitioned Elias-Fano sequences, with any remapping order and whatever hash functions were found, make `score` report the same totals (log-probability, OOVs, words, sentences, part of the OOVs) for every corpus. Likewise all count models built from the same lines return the same count for every listed n-gram.',
  'every ARPA model of order 2 to 8 and every permutation of the lines of its sections, every admissible quantisation, every choice of data structure and remapping, every corpus',
  'a test compares two structures on one model; the claim is about all models, all orders of their lines, all structures and all corpora',
  ['include/mph_prob_lm.hpp: builder, score', 'include/trie_prob_lm.hpp: builder, score', 'include/mph_count_lm.hpp: lookup', 'include/trie_count_lm.hpp: lookup', 'include/sequences/sequence_collections.hpp: build_probs_sequence, build_backoffs_sequence', 'src/score.cpp: score_corpus'])
p('The totals that score reports are accurate for texts of ordinary length',
  '`score_corpus` adds the scores of the words of a sentence, and then the sums of the sentences, in single precision. For a text of n sentences of at most L words, n + L at most 2^23, and scores that are not positive, the reported log10 probability differs from the exact sum of the scores of the words by at most (n + L)/2^23 of that sum, and the part of the unknown words by at most u/2^23 of its exact sum when there are u of them (u at most 2^23). For longer texts the total is not reliable: of a sentence repeated any number of times the reported total never goes below 2^26 times the score of the sentence, so that the perplexity printed goes to 1 with the length of the text.',
  'every ARPA model of order 2 to 8 as a trie or a hash model, with values rounded as IEEE 754 single precision does, and every corpus',
  'the error grows with the number of sentences; tests compare totals for a short text against another program that also rounds',
  ['src/score.cpp: score_corpus', 'include/trie_prob_lm.hpp: score', 'include/mph_prob_lm.hpp: score'])
p('Coinciding hash keys only mix up words, and only as a replacement',
  'The tables keep hash keys instead of words. Whatever words a query or a corpus contains (provided the hash function maps each of them inside its table), looking it up in a count trie, or scoring it with a backoff trie, is defined and gives what the query or corpus gives in which each word is replaced by the word it is taken for: the word owning the slot it is mapped to if that has the same hash key, itself otherwise. The same holds of tries over partitioned Elias-Fano sequences for the queries and texts that they answer correctly after the replacement (C49, C55). Words of the vocabulary are taken for themselves. A hash count model gives an n-gram that it takes for a listed one the count of that one. The hash key depends on each of the three hashes of a word: with any two of them fixed, exactly one value of the third gives a particular key.',
  'every model, every hash function built for it, every query and every corpus, with any number of coinciding hash keys',
  'hash keys of 64 bits never coincide in a test',
  ['include/utils/mph_tables.hpp: single_valued_mpht, double_valued_mpht', 'include/trie_count_lm.hpp: lookup', 'include/trie_prob_lm.hpp: score', 'include/mph_count_lm.hpp: lookup', 'src/score.cpp: score_corpus'])
p('The reported total against the exact total of the ARPA file',
  'Let the values of an ARPA file be log-probabilities (no value positive, contexts of listed n-grams with a backoff that is not 0), let quantisation move no value by more than d, and let T be the exact (real-number) sum over all words of a text of the textbook backoff scores with the values as they stand in the file. The total log-probability that score reports for the text differs from T by at most e|T| + (1+e) * order * d * words with e = (order + L + S)/2^23, for S sentences of at most L words (order + L + S <= 2^23). d can be taken as the spread of the values of one order, whatever the codebooks.',
  'every ARPA file of log-probabilities, every number of quantisation bits, every text, backoff tries and hash models',
  'quantisation and rounding errors accumulate over a text; a test compares a few numbers with a tolerance',
  ['src/score.cpp: score_corpus', 'include/trie_prob_lm.hpp: score', 'include/mph_prob_lm.hpp: score', 'include/sequences/sequence_collections.hpp: quantized_sequence_collection'])
p('The perplexities that score prints',
  'For an ARPA file of log-probabilities (no value positive, contexts of listed n-grams with a backoff that is not 0) and every non-empty text, the perplexity including OOVs is at least 1, and if quantisation moves no value by more than d it lies between P^(1-e) / 10^D and P^(1+e) * 10^D, P being the exact perplexity of the text under the values of the file, e = (order + L + S)/2^23 and D = (1+e) * order * d, for S sentences of at most L words. The perplexity excluding OOVs is printed when there is a known word and is off by at most a factor 10^E, E being the rounding errors of both totals per known word (which is why it can be useless when there are many unknown words: shown as a defect).',
  'every ARPA file of log-probabilities, every number of quantisation bits, every text with any mixture of known and unknown words, backoff tries and hash models',
  'the errors depend on the length of the text and the share of unknown words; tests look at one text',
  ['src/score.cpp: score_corpus', 'include/trie_prob_lm.hpp: score', 'include/mph_prob_lm.hpp: score'])
p('The command-line programs, end to end',
  'Given valid arguments and well-formed input files, build_trie and build_hash write a file from which, whatever class its first byte names, the other programs work: test_count_model run on it and the folder it was built from finds every n-gram with its count, lookup_perf_test prints in each run the counts of the queries (not found for the admissible absent ones), and score prints the textbook totals of the corpus under the values of the ARPA file; score refuses files of count models and the look-up programs those of probability models; print_stats prints the numbers of n-grams, ranges and gaps of the input and the size of the file with its shares. On unsorted data, sort_grams (or sort_arpa) followed by build_trie gives files with which the other programs answer with the counts (or the scores) of the original data. With wrong arguments, an order outside 2..8, a probability of <unk> that is not negative, or a missing file of counts no file is written (but numbers from 256 on are taken modulo 256, and a missing --arpa is a null pointer: shown as defects).',
  'every combination of arguments (data structure, value type, remapping order, ranks, hash-key size, bits, <unk> probability), all input folders and ARPA files of those arguments, all query files, numbers of runs and corpora',
  'the two programs agree only through one byte of the file, each over its own table of classes; tests run a few combinations on one corpus',
  ['src/build_trie.cpp: main', 'src/build_hash.cpp: main', 'src/score.cpp: main', 'src/print_stats.cpp: main', 'src/lookup_perf_test.cpp: main', 'test/test_count_model.cpp: main', 'include/utils/util.hpp: save, load, get_model_type, check_order, check_unk_logprob', 'include/lm_types.hpp: TONGRAMS_TYPES'])
p('Reproducible builds',
  'Building twice from the same files with the same arguments gives the same bytes, whatever happened to be in memory behind the arrays, in whatever order the compiler evaluated operands, and - for backoff models always, for count models if no two counts of an order occur equally often - whatever order the hash table of the standard library is traversed in and std::sort leaves equal elements in. If two counts of an order do occur equally often, every conforming library has another conforming one with which build_trie and build_hash write a different file; and a sequence without long ranges writes its uninitialised table of offsets (both shown as defects).',
  'all arguments, input folders and ARPA files that the builders accept (for hash models also all that they refuse), all pairs of environments, every library whose traversal is a permutation and whose sort sorts',
  'a test runs with one compiler, one standard library and one memory content; the same bytes in two runs of one binary say nothing about another',
  ['src/build_trie.cpp: main', 'src/build_hash.cpp: main', 'include/sequences/sequence_collections.hpp: builder::eat_value, builder::build_sequence', 'include/sequences/fast_ef_sequence.hpp: save', 'include/utils/util.hpp: save'])
p('Builders keep their write position',
  'Several bit_vector_builders in one program each keep exactly the bits that were put into them, wherever and whenever the memory of their vectors moves, whichever freed addresses are used again, and whichever builders change places with swap: append_bits, append, zero_extend, set, set_bits, init never write through a stale pointer or into the words of another builder, as long as reserve is called between full words, resize goes to a multiple of 64 bits, a builder is not appended to itself and builders are not copied. Each of these four conditions is needed: without it the calls lose bits or write to freed memory (shown as defects).',
  'all histories of constructions, destructions and calls on any number of builders, all sizes and values in range, every placement by the allocator (in place, moved, at addresses used before)',
  'whether a vector moves depends on its capacity and on the allocator; a write through a stale pointer usually goes unnoticed in a test',
  ['include/vectors/bit_vector.hpp: bit_vector_builder::append_bits, append, zero_extend, reserve, resize, swap, m_cur_word'])
p('Too little memory',
  'The hash builders keep the n-grams of one order at a time in a pool whose size is 80% of the memory of the machine. Whatever that size is, building a hash model of counts either gives the model of all n-grams of the files, or throws: it throws exactly if the n-grams of some order have more bytes than the pool, and build_hash then writes no file; no smaller or wrong model comes out. Building a count trie does the same for the unigrams, the only n-grams it keeps. The builder of hash models with backoffs has no such check (shown as a defect): it ignores the answer of the pool, drops the n-grams that do not fit, and reads past the end of the vector of those that were kept.',
  'all count files and ARPA files in range, all orders, all sizes of the pools, all command lines of build_hash',
  'tests run on machines where everything fits; whether an order fits depends on the machine and the data',
  ['include/mph_count_lm.hpp: mph_count_lm::builder', 'include/mph_prob_lm.hpp: mph_prob_lm::builder, build_vocabulary', 'include/utils/pools.hpp: grams_counts_pool::load_from, grams_probs_pool::append', 'src/build_hash.cpp: main'])
p('Search cost',
  'A search among the n children of a node costs a bounded number of reads, whatever the data: with n < 128 children no sample is read, otherwise at most log2(n) - 5 samples. In both cases operator[] is called at most twice, and the final scan looks at no more than 64 elements. So a lookup in a trie takes at most these steps at each order, and every n-gram of the files is found within them. The binary search among n distinct values, which gives each n-gram the rank of its value when a model is built, needs at most log2(n) + 1 rounds for a key that is there and one more for a key that is not; select on a bit vector looks at no more than 1025 words, however far the ones (or zeros) are apart. The number of zero words between two ones that the scan passes over is not bounded by this property.',
  'all sorted ranges with any ids and any pointers, all searched ids, present or not; all sorted lists of keys; all bit vectors and all positions in them; all count files in range, all remapping orders, all stored n-grams',
  'tests see that a result is right, not how much was read to find it; a wrong step in a tree of samples still ends in the right place by scanning longer',
  ['include/sequences/fast_ef_sequence.hpp: find, bsearch_scan, scan', 'include/utils/util.hpp: binary_search; include/sequences/sequence_collections.hpp', 'include/sequences/darray.hpp: select', 'include/trie_count_lm.hpp: lookup'])
p('Sizes and positions in 64 bits',
  'The containers compute numbers of bits and bit positions as sums and products of 64-bit numbers. Up to these sizes nothing wraps around, so the containers behave as the other properties say: a compact vector or a hash table whose entries together take fewer than 2^64 - 63 bits, a bit vector builder of fewer than 2^64 - 63 bits in every state and for every operation, and an Elias-Fano sequence of fewer than 2^57 values with any universe. Beyond these sizes there is no check (shown as a defect): a compact vector or a hash table that is too large is built without an error and has too few words, so that set() is undefined or overwrites another entry.',
  'all numbers of entries and widths, all histories of set(), all histories of bit_vector_builder operations, all sequences and universes',
  'a test cannot allocate vectors near 2^64 bits; whether a product wraps depends on sizes no test reaches',
  ['include/vectors/compact_vector.hpp: builder, set, operator[], iterator', 'include/vectors/hash_compact_vector.hpp: builder', 'include/vectors/bit_vector.hpp: bit_vector_builder', 'include/sequences/ef_sequence.hpp: build, operator[]'])
p('The orders of a hash model are independent',
  'A hash model answers the n-grams of one order from the section of that order alone. Two count models built from files that agree on the n-grams of one order (and get the same hash function for it) answer every n-gram of that order the same, whether it is in the files or not, whatever the other orders contain, however many there are, and however large the pools were. Two models of probabilities built from files with the same unigrams give a word the same probability, backoff and position, and unknown words the same probability, whatever the other sections and the numbers of quantisation bits are; if the files agree on the sections of up to n+1 words, none of which is the last section of its model, and the quantisation is the same, then after a state of at most n words every word gets the same score, the same new state and the same OOV verdict.',
  'all pairs of successful builds, all n-grams (stored, absent and malformed), all states and words, all pool sizes and orders',
  'a test compares a few pairs of models; independence must hold for every other content of the other orders and for absent n-grams too',
  ['include/mph_count_lm.hpp: mph_count_lm, lookup', 'include/mph_prob_lm.hpp: builder, score', 'include/utils/pools.hpp: grams_counts_pool, grams_probs_pool'])
with open("/verif/properties.jsonl","w") as f:
    for x in P: f.write(json.dumps(x)+"\n")
print(len(P))
