{
"C01": [
"proved",
"width 0..64; build-from-iterator fails for the value 2^64-1 (defect theorem)"
],
"C02": [
"proved",
""
],
"C03": [
"proved",
""
],
"C04": [
"proved",
"exact for widths <=58, 60, 64; defect witness for 63"
],
"C10": [
"proved",
"portable branches of popcount and select_in_word"
],
"C37": [
"proved",
""
],
"C05": [
"proved",
""
],
"C06": [
"proved",
""
],
"C07": [
"proved",
"value 2^64-1 excluded (defect theorem: shift by 255)"
],
"C08": [
"proved",
""
],
"C42": [
"proved",
"len < 64; defect witness for get_bits(64) followed by skip_zeros"
],
"C09": [
"proved",
"64-bit keys: all widths; 32-bit keys: widths 1..32 and 64 and total size <= 2^32 bits; two defect theorems for the rest"
],
"C11": [
"proved",
""
],
"C12": [
"proved",
"the optional zero index (unused by the library) is not modelled"
],
"C22": [
"proved",
"emphf is external: hasher, sorter output (a peeling order) and the bit-pair vector are parameters; termination fails for duplicate keys and for n=2 (theorems)"
],
"C23": [
"proved",
"single/double valued and uint tables; absent key may be read out of bounds (defect theorem)"
],
"C13": [
"proved",
"build/operator[] for any grouped input; two long ranges never build (defect)"
],
"C14": [
"proved",
"find exact on any non-empty range; empty-range defects"
],
"C15": [
"proved",
"operator[] and iteration; wrap defect for values >= 2^64-2"
],
"C16": [
"proved",
"over ef_sequence"
],
"C19": [
"proved",
""
],
"C38": [
"proved",
""
],
"C20": [
"proved",
""
],
"C39": [
"proved",
""
],
"C24": [
"proved",
"fast_ef grams with indexed-codewords or prefix-summed ranks; words abstract"
],
"C25": [
"proved",
"with the hypotheses listed in the theorem; the released code misbehaves outside them (defect theorems)"
],
"C21": [
"proved",
"over any arithmetic with the laws of class FloatArith; two instances proved: exact rationals, and IEEE binary32 floats with sums accumulated in binary64 (rounding to nearest even, gradual underflow; infinities and NaN left out, the two zeros identified; centroids of at most 2^24 values)"
],
"C29": [
"proved",
"n-gram state and score loop stay in bounds for orders 2..8 whatever the look-ups answer; order 9 defect witnessed"
],
"C27": [
"proved",
"exact score for every closed ARPA model (context kept by the code) plus textbook equality when contexts have non-zero backoff; zero-backoff defect witnessed"
],
"C31": [
"proved",
"iterators and text_lines over memory bytes; a text whose last line lacks the final newline is a proved defect"
],
"C32": [
"proved",
"predecessor, suffix, next, prev, back_to; back_to the first word is a proved defect"
],
"C33": [
"proved",
"strict total order = lexicographic order of ids, for in-vocabulary same-order n-grams; unknown words break it (defect theorem)"
],
"C34": [
"proved",
"sorter on any batches; sort_grams driver with the exact condition; lost last record proved as a defect for every input"
],
"C40": [
"proved",
"all histories of append/clear"
],
"C26": [
"proved",
"stored grams, any files; absent grams: defect shown"
],
"C28": [
"proved",
"hash backoff model: exact scores, textbook scores, equality with the trie"
],
"C30": [
"proved",
"trie and hash models, all texts"
],
"C35": [
"proved",
"all valid command lines (complete enumeration), all 256 header bytes"
],
"C41": [
"proved",
"all lines; all count files, over the decompressed bytes"
],
"C43": [
"proved",
"all well-formed ARPA texts; two defects witnessed"
],
"C44": [
"proved",
"all four models (fast_ef grams for tries)"
],
"C17": [
"proved",
"Any session of valid accesses and searches. Values below 2^57; values below 2^31-1 when one partition (defect theorem shows the truncation)."
],
"C18": [
"proved",
"Present ids after any searches; after any mixed history for ranges not starting at 0 or several partitions. Absent non-zero ids: not-found if a greater id is in the range, otherwise never reported inside the range. Six defect theorems delimit the hypotheses."
],
"C45": [
"proved",
"orders outside 2..8 and remapping orders above 2 make every builder throw"
],
"C36": [
"proved",
"every vector, sequence, table and the four models; loaded tries give the same answers although unbuilt sequences come back with arbitrary contents; composed with C24/C27/C49/C55 to files -> build -> queries -> save -> load -> answers, also for tries over uniform_pef_sequence (enumerators move, the bytes do not). Hypotheses: numbers fit their C++ members, emphf reads back its hashers"
],
"C46": [
"proved",
"both model families, from the bytes of the ARPA file and of the corpus"
],
"C47": [
"proved",
"the model is the one built from the files; that a saved and loaded model answers the same is C36"
],
"C48": [
"proved",
""
],
"C49": [
"proved",
"stored n-grams, and absent ones whose first missing search is for a non-zero id below a stored sibling, for pef grams; all absent ones of C25 for fast_ef grams with any ranks; the other absent ones are really misreported with pef grams (defect theorems)"
],
"C50": [
"proved",
"composition of parsing, building, saving, loading and answering; hypotheses: emphf reads back what it writes; floats have 32 bits"
],
"C51": [
"proved",
"Hypotheses: words without spaces/tabs/newlines; each n-gram fits the memory; last batch of more than one n-gram (the defect theorem shows it is needed); output file empty for the pipeline."
],
"C52": [
"proved",
"Hypotheses: exactly one blank line after each section before (a defect theorem shows it is needed), last batch of more than one n-gram, printed numbers readable; for the pipeline, printing must lose no digits."
],
"C53": [
"proved",
"the numbers of bytes are C54; floating-point rounding of the entropies is abstracted (any F, any log2)"
],
"C54": [
"proved",
"stated for fast Elias-Fano grams; floating-point rounding of percentages is abstracted (any F)"
],
"C55": [
"proved",
"C55_pef_trie_interleaved_scores for all sessions and texts of PefScorable n-grams; C55_absent_bigram_scored_defect: other absent n-grams get wrong scores"
],
"C56": [
"proved",
"Bounds for five sequences, hash count models and count tries with fast Elias-Fano grams; backoff models are not stated. C56_empty_sequence_defect: a sequence of no values takes one bit per number of its universe."
],
"C57": [
"proved",
""
],
"C58": [
"proved",
""
],
"C59": [
"proved",
""
],
"C60": [
"proved",
""
],
"C61": [
"proved",
""
],
"C62": [
"proved",
""
],
"C63": [
"proved",
""
],
"C64": [
"proved",
""
],
"C65": [
"proved",
""
],
"C66": [
"proved",
""
],
"C67": [
"proved",
""
],
"C68": [
"proved",
""
],
"C69": [
"proved",
""
],
"C70": [
"proved",
""
],
"C71": [
"proved",
""
],
"C72": [
"proved",
""
],
"C73": [
"proved",
""
],
"C74": [
"proved",
""
],
"C75": [
"proved",
""
]
}