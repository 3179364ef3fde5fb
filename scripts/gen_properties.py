#!/usr/bin/env python3
# Generates /verif/properties.jsonl (kept as a script so that quoting stays sane).
import json, os
P=[]
def p(id,title,statement,quantifier,why,anchors):
    P.append(dict(id=id,title=title,statement=statement,quantifier=quantifier,why_tests_cant=why,anchors=anchors))

VALID="non-empty strictly increasing lists of 32-bit integers whose maximum is below 4294901760 (0xFFFF0000), of any length"

p("C01","decode returns the list that was built",
  "Building a sequence from a valid list xs and decoding it into a big enough output buffer returns xs.size() and leaves exactly the elements of xs, in order, in the first xs.size() slots, whatever mixture of full, dense and sparse slices xs has; no exception, assertion failure or undefined behaviour occurs on the way.",
  "all "+VALID+"; all load addresses; all buffer contents and all contents of the memory around the encoded bytes",
  "The encoding switches representation on cardinality thresholds in every 65536-slice and 256-block; a test only samples a few lists out of 2^(2^32).",
  ["include/builder.hpp: encode_sequence","include/decode.hpp: s_sequence::decode","include/s_sequence.hpp: s_sequence::s_sequence"])
p("C02","every 32-bit value can be stored (expected, but false in the last slice)",
  "One expects a strictly increasing list containing values in [4294901760, 4294967295] to round-trip. The code does not do that: in a release build those values are silently dropped (the produced bytes are those of the remaining list), in a debug build the builder aborts, and when no smaller value exists the produced bytes describe 65536 chunks that are not there.",
  "all strictly increasing lists that contain at least one value >= 0xFFFF0000",
  "The failure needs values in the last 1/65536 of the universe; the shipped generators and tests never go there, and a test that finds one failing list does not show that all of them fail.",
  ["include/builder.hpp: encode_sequence (s.right += chunk_size)"])
p("C03","cardinality()/size() is the number of stored integers",
  "After building xs, cardinality() and size() return xs.size() exactly, with no 32-bit wrap-around.",
  "all "+VALID,"sum over an unbounded number of chunk headers of 16-bit biased counters",
  ["include/s_sequence.hpp: s_sequence::cardinality, size"])
p("C04","contains is exact membership",
  "contains(v) returns true if v was in the list used to build and false otherwise, for every 32-bit v, including values in absent slices/blocks and beyond the maximum.",
  "all "+VALID+" and all 2^32 query values","negative answers and skip-pointer jumps cannot be enumerated; the shipped test only queries positive answers",
  ["include/contains.hpp: s_sequence::contains","include/s_sequence.hpp: iterator::skip_to_value"])
p("C05","select returns the i-th smallest element, and nothing out of range",
  "select(i, value) with i < size() returns true and sets value to the i-th element (0-based) of the list; with i >= size() it returns false and leaves value unchanged.",
  "all "+VALID+"; all 2^32 ranks; all previous contents of value","depends on cumulative counts in skip pointers, block headers and bit positions found with pdep/tzcnt",
  ["include/select.hpp: s_sequence::select","include/s_sequence.hpp: iterator::skip_to_position"])
p("C06","next_geq returns the smallest element >= the bound, or not_found",
  "next_geq(v) returns the least element >= v when there is one, and 4294967295 exactly when there is none; the not_found value never collides with a stored element.",
  "all "+VALID+" and all 2^32 bounds","saturation cases (end of block, end of chunk, end of list, wrap of the past-the-end base) interact with every layout",
  ["include/next_geq.hpp: s_sequence::next_geq"])
p("C07","uncompress writes the characteristic bitmap",
  "uncompress into a zeroed buffer of enough 64-bit words returns size() and leaves bit v set iff v is in the list.",
  "all "+VALID,"bit-level result over up to 2^26 words",
  ["include/uncompress.hpp: s_sequence::uncompress"])
p("C08","uncompress touches only the slices that hold elements",
  "On a buffer with arbitrary previous contents, uncompress overwrites exactly the 1024-word windows of the non-empty slices (each becomes the characteristic bitmap of that slice) and leaves every other word unchanged; in particular it never writes beyond the window of the last non-empty slice, and stale bits in empty slices survive.",
  "all "+VALID+" and all previous buffer contents","frame property over all words of all buffers",
  ["include/uncompress.hpp: uncompress_chunk, s_sequence::uncompress"])
p("C09","the enumerator yields every element once, in order, then past_the_end",
  "After init, calling value()/next() k times (k < size()) shows the k-th element with has_next() true; after size() calls of next(), has_next() is false and value() is the past_the_end argument, and this stays so for the 2^32 - 1 calls of next() that follow.  The call after them leaves the last slice again, because m_i has come round: it decodes a slice that is not there (undefined behaviour for [5] followed by zeros, an abort with assertions).",
  "all "+VALID+"; all past_the_end values; all numbers of next() calls","history property; buffer refills happen at chunk boundaries only",
  ["include/enumerator.hpp: enumerator"])
p("C10","pairwise_intersection computes the set intersection",
  "pairwise_intersection(l, r, out) returns |L ∩ R| and leaves the common elements in increasing order in out.",
  "all pairs of valid lists; all load addresses (also the same sequence twice)","nine chunk-type pairs times four block-type pairs times SIMD/scalar paths times all data",
  ["include/intersection.hpp: pairwise_intersection"])
p("C11","pairwise_union computes the set union",
  "pairwise_union(l, r, out) returns |L ∪ R| and leaves the elements of either list, without duplicates, in increasing order in out.",
  "all pairs of valid lists; all load addresses where the two encodings are disjoint or identical","as C10, plus the pointer comparison `r != end_l` whose outcome depends on addresses",
  ["include/union.hpp: pairwise_union, ss_union_block"])
p("C12","intersection of many sequences",
  "intersection(sequences, out) of k >= 1 sequences returns the size of the common intersection and leaves it in increasing order in out, whatever order std::sort chooses for ties.",
  "all non-empty vectors of valid sequences, all tie-breaking orders","unbounded number of sequences; candidate search with resets",
  ["include/intersection_many.hpp: intersection","include/uncompress_chunk_and_intersect.hpp"])
p("C13","union of many sequences",
  "union_many(sequences, out) of k >= 1 sequences returns the size of the union and leaves it in increasing order in out.",
  "all non-empty vectors of valid sequences","unbounded number of sequences",
  ["include/union_many.hpp: union_many","include/uncompress_chunk_and_merge.hpp"])
p("C14","set operations do not depend on argument order, repetition or scratch history",
  "Swapping the arguments of pairwise_intersection/pairwise_union, permuting the vector given to intersection/union_many, or running any other set operations before (which leaves arbitrary contents in the function-local static scratch buffers) does not change the returned size nor the produced elements; intersecting or uniting a sequence with itself gives that sequence.",
  "all valid inputs, all permutations, all contents of the static scratch buffers","order- and history-independence over unbounded call histories",
  ["include/intersection.hpp","include/union.hpp","include/intersection_many.hpp","include/union_many.hpp"])
p("C15","next_geq_enumerator agrees with next_geq on non-decreasing bounds (expected, but false on long jumps)",
  "One expects that calling next_geq(v1), next_geq(v2), ... with v1 <= v2 <= ... on a next_geq_enumerator returns what s_sequence::next_geq returns. This holds while consecutive bounds are at most 32 non-empty slices apart (in particular for every sequence with at most 32 non-empty slices); it is false in general: after advancing chunk by chunk, a later jump over 32 chunks adds a byte offset that belongs to another group of chunks and wrong values are returned. Exactly: a jump over 32j non-empty slices leaves the data pointer on the slice reached if and only if these slices take as many bytes as the first 32j slices no jump has used so far; all histories are answered correctly while all their jumps are of this kind, and all non-decreasing histories make only such jumps if and only if the sizes of the non-empty slices (without the last) repeat every 32 slices.",
  "all "+VALID+"; all finite non-decreasing histories of bounds","history property; the shipped test queries every value in turn, so the enumerator never jumps",
  ["include/next_geq_enumerator.hpp: next_geq_enumerator::next_geq","include/s_sequence.hpp: iterator::skip_to_value"])
p("C16","duplicates are rejected",
  "Building from a non-decreasing list (maximum below 0xFFFF0000) that contains a repeated value throws runtime_error(\"duplicate element\"), and building from one without repetition never throws.",
  "all non-decreasing non-empty lists with maximum below 0xFFFF0000","every position and every slice boundary",
  ["include/building_util.hpp: chunk_cardinality"])
p("C17","building an empty list is undefined, and the collection builder never does it",
  "Calling the sequence builder with n = 0 reads before the array (undefined behaviour). The collection builder skips every empty list whatever the density and size thresholds are, so it never reaches that case.",
  "all parameters, all collections","for all thresholds and all collections",
  ["include/builder.hpp: encode_sequence, s_index::builder::build","include/util.hpp: pass"])
p("C18","an index built from a collection gives back exactly the selected lists, in order",
  "For a well-formed collection file, build + save + mmap gives an index whose universe() is the header value, whose size() is the number of lists that pass the filter, and whose i-th sequence decodes to the i-th such list.",
  "all well-formed collections of valid lists (any number, any lengths) and all filter parameters","unbounded number and sizes of lists; offsets into the concatenated bytes",
  ["include/builder.hpp: s_index::builder","include/s_index.hpp: mmap, operator[]"])
p("C19","the density filter is a disjunction and is void with the default size threshold",
  "A list is kept iff its density exceeds the (non-negative) density threshold or its length exceeds the size threshold. With the default size threshold 0 every non-empty list is kept, whatever the density threshold is (the README's `--density 0.01` example therefore filters nothing).",
  "all lists and all parameters","for all parameters and lists",
  ["include/util.hpp: pass, parameters"])
p("C20","the reported number of bits is the real size",
  "For an index, the reported total bits equal 8 times the size of the saved file. For a single sequence, the reported bits equal 8 times the encoded bytes plus 128.",
  "all valid lists/collections","accounting through eleven counters over all layouts",
  ["include/builder.hpp: encode_sequence, statistics","include/util.hpp: statistics::accumulate"])
p("C21","the reported integer and chunk counters add up",
  "The reported number of integers is the total length of the encoded lists, and equals integers in sparse + dense + full chunks; integers in sparse chunks equal integers in sparse + dense blocks; chunks equal empty + sparse + dense + full chunks.",
  "all valid lists/collections","accounting over all layouts",
  ["include/builder.hpp: encode_sequence","include/building_util.hpp: block_bitsize, sparse_chunk_bitsize"])
p("C22","point queries never read outside the encoded bytes",
  "cardinality, contains, select, next_geq and uncompress only read bytes of the sequence's own encoding: they run without undefined behaviour even when nothing else is readable.",
  "all "+VALID+"; all query values","memory safety for all inputs",
  ["include/contains.hpp","include/select.hpp","include/next_geq.hpp","include/uncompress.hpp"])
p("C23","decode, enumeration and set operations read at most 31 bytes past the encoding",
  "decode, the enumerator and the pairwise set operations run without undefined behaviour whenever 31 readable bytes follow each encoding (the many-way operations need none); 31 is exact for decode: with 30 it reads out of bounds on some list, and without any padding already on a one-element list (SIMD over-read).",
  "all valid inputs","over-reads depend on the last block's cardinality",
  ["include/decode.hpp: decode_sparse_block","include/intersection.hpp: INIT"])
p("C24","writes stay within 23 slots after the result",
  "decode, pairwise_intersection and pairwise_union write only within [out, out + result + 23) (the many-way operations within [out, out + result)) and leave every other slot unchanged; so a buffer with 23 spare slots is safe, and 22 are not enough. A buffer of exactly size() slots, as in the quick-start example, is overrun (SIMD over-write).",
  "all valid inputs, all buffer contents and capacities","memory safety for all inputs; the overrun is silent without sanitizers",
  ["include/decode.hpp: decode_sparse_block","include/union.hpp: ss_union_block","src/example.cpp: main"])
p("C25","encoded size bounds",
  "The encoding of a valid list never takes more than 2 + 8*floor(k/32) + 8200*k bytes for k non-empty slices, nor more than 2 + 12*n bytes for n integers; a slice with all 65536 values costs only its 8-byte header.",
  "all "+VALID,"worst case over all inputs",
  ["include/builder.hpp: encode_sequence"])
p("C26","the encoding is canonical: deterministic and injective",
  "Two valid lists have the same encoding iff they are equal, and re-encoding what decode returns reproduces the same bytes. Encodings delimit themselves: no encoding is a proper prefix of another one, even followed by arbitrary bytes, so the encodings of several lists one after the other determine the lists without the offsets.",
  "all pairs of valid lists","quantifies over pairs of inputs",
  ["include/builder.hpp","include/decode.hpp"])
p("C27","the query operations are mutually consistent",
  "For every i < size(): contains(select(i)) is true, next_geq(select(i)) = select(i), next_geq(select(i)+1) = select(i+1) (or not_found for the last), and select is strictly increasing; contains(v) holds iff next_geq(v) = v (for v below 4294967295).",
  "all valid lists, ranks and values","relational over all inputs",
  ["include/select.hpp","include/contains.hpp","include/next_geq.hpp"])
p("C28","building appends: earlier output is preserved",
  "Encoding a list into an output vector only appends to it; what was there before is unchanged and the appended bytes do not depend on it. Hence a builder object used twice still exposes the first list at data().",
  "all previous contents, all valid lists","history property of the builder",
  ["include/builder.hpp: encode_sequence, s_sequence::builder"])
p("C29","a truncated or partially written index file only harms the missing sequences",
  "If the saved index file is cut at any byte (crash while saving, partial copy), mmap does not notice: as soon as the first 16 bytes are present size() and universe() are unchanged, and every sequence whose bytes (and 31 following bytes) lie before the cut still answers every query correctly.",
  "all valid collections and all cut points","all crash points",
  ["include/s_index.hpp: mmap"])
p("C30","many-way operations agree with iterated pairwise ones",
  "intersection({s1..sk}) yields the same list as folding pairwise intersection over decoded lists, and union_many the same as folding pairwise union.",
  "all non-empty vectors of valid sequences","unbounded k",
  ["include/intersection_many.hpp","include/union_many.hpp","test/test_intersect_many.cpp","test/test_union_many.cpp"])
p("C31","intersection reorders the caller's vector only",
  "After intersection(sequences, out) the caller's vector holds the same sequences, permuted into non-decreasing order of cardinality; no sequence is lost or altered.",
  "all non-empty vectors","all permutations and ties",
  ["include/intersection_many.hpp: intersection (std::sort)"])
p("C32","a fresh iterator's skip lands on the right chunk with the right data",
  "From begin(), skip_to_value(c) positions the iterator on the first chunk whose id is >= c (or at the end), and skip_to_position(r) on the chunk containing rank r, returning the number of elements before it; chunk-by-chunk advance(c) ends on the same chunk as skip_to_value(c).",
  "all valid lists, all bounds/ranks","skip pointers cover groups of 32 chunks: long sequences only",
  ["include/s_sequence.hpp: iterator"])
p("C33","assertions never fire on valid input",
  "In a debug build (assertions enabled) no assertion of the library fires while building from a valid list or querying it; release and debug builds return the same results.",
  "all valid inputs and queries","assertions are only evaluated on executed inputs",
  ["include/*.hpp: assert"])
p("C34","set operations are not re-entrant: concurrent calls can corrupt each other",
  "One expects const queries to be usable from several threads. Operations that use function-local static scratch buffers are not: there is an interleaving of two calls on different sequences that yields a wrong result; running the calls one after the other is always right.",
  "all interleavings of two calls at the granularity of the scratch-buffer phases","schedule property",
  ["include/union.hpp: ds_union_chunk","include/intersection.hpp: ds_intersect_chunk"])
p("C35","the encoded size is exactly determined by the slice and block counts",
  "The number of bytes is 2 + 8*floor(k/32) + the sum over the k non-empty slices of 8 + s, where s is 0 for a slice with 65536 elements, the cost of its 256-value blocks (n+2 bytes for 1 <= n < 31 elements, 34 bytes for more) when that is below 8192 and the slice has fewer than 32768 elements, and 8192 otherwise. The choice is not always the cheapest: a slice with at least 32768 elements is written as a bitmap even when its blocks would be smaller.",
  "all non-empty strictly increasing lists of 32-bit integers whose maximum is below 4294901760 (0xFFFF0000), of any length","a formula over all mixtures of slice and block cardinalities; thresholds 31, 32768, 8192, 65536 interact",
  ["include/builder.hpp: encode_sequence, encode_block","include/building_util.hpp: sparse_chunk_bitsize"])
p("C36","the histograms count what their names say",
  "After building a list or a collection (counting over the lists that are kept), num_blocks_in_chunks[b] is the number of slices stored as b non-empty blocks, num_integers[b] the number of integers in those slices, and sparse_blocks_cardinalities[n] (1 <= n <= 30) the number of blocks with exactly n elements in slices stored as blocks.",
  "all valid lists and collections","histogram over all slice/block shapes",
  ["include/util.hpp: statistics","include/builder.hpp: encode_sequence"])
p("C37","building terminates on every input, with one exception",
  "Building a sequence terminates for every list of words, sorted or not, and building an index for every file of at most 2^32 + 1 words, well-formed or not (normally, by an assertion, or by undefined behaviour). A well-formed collection file that contains a list of 2^32 - 1 integers is never finished: the 32-bit sum n + 1 wraps to 0 and the same list is read again for ever.",
  "all lists of words; all files up to the stated size; all lists of 2^32 - 1 integers","termination is about all inputs, also malformed ones; the wrap needs a 16 GiB input",
  ["include/builder.hpp: encode_sequence, s_index::builder::build"])
p("C38","no reader hangs on a corrupt index",
  "Whatever the memory contains (a file that was damaged, truncated or not written by the builder), every query, every iterator or enumerator move, every history of next_geq-enumerator calls, and every pairwise or many-way set operation comes to an end: it returns, or stops at an assertion or an invalid access, but never loops for ever.",
  "all memory contents, all arguments, all scratch-buffer contents","all possible corruptions",
  ["include/s_sequence.hpp: iterator","include/next_geq_enumerator.hpp","include/intersection.hpp","include/union.hpp","include/intersection_many.hpp","include/union_many.hpp"])
p("C39","lists that are not sorted: what assertions catch and what they miss",
  "One expects the builder to reject a list that is not strictly increasing. It only asserts inequality of neighbours and the order of slices: a debug build that succeeds guarantees that the slices come in order, neighbours differ and no element is in the last slice, but [5,3] is accepted and then 3 is not found. A release build stores an element of an earlier slice as a different value (sparse slice), or sets a bit outside of the slice's bitmap (dense slice).",
  "all lists of 32-bit words, sorted or not","the set of accepted unsorted lists is unbounded; tests only build sorted lists",
  ["include/building_util.hpp: chunk_cardinality","include/builder.hpp: encode_sequence, encode_dense_chunk, encode_sparse_chunk"])
p("C40","the programs cardinality, decode and uncompress print the right totals",
  "Run on a saved index: cardinality prints the number of integers of the kept lists (if eleven times that number fits 64 bits); decode and uncompress print the number of sequences and of integers, decode if the universe exceeds the length of each list by at least 23, uncompress if no element exceeds the universe and the universe is below 4294901760.",
  "all good collections, parameters, addresses, build modes","whole programs on collections of any number and size of lists; counters wrap",
  ["src/cardinality.cpp","src/decode.cpp","src/uncompress.cpp"])
p("C41","the programs contains, select and next_geq add up the right answers",
  "contains prints 4 times the number of pairs (i,v) on standard input with v in sequence i; select and next_geq print 4 times the sum of the answers, taking k queries per sequence, in order. With fewer than k times size() queries on standard input select and next_geq read past the end of the query vector.",
  "all good collections and all query streams of numbers","unbounded query streams; the short stream is undefined behaviour, not a wrong answer",
  ["src/contains.cpp","src/select.cpp","src/next_geq.cpp"])
p("C42","the programs intersect and union add up the right sizes",
  "For every stream of pairs of sequence numbers, intersect prints 11 times the total size of the pairwise intersections and union 11 times the total size of the unions, if the universe leaves room for the result and 23 more slots; the result does not depend on what the static scratch buffers contained before.",
  "all good collections, all query streams, all scratch contents","state is carried from query to query and from run to run",
  ["src/intersect.cpp","src/union.cpp"])
p("C43","the exact size an output buffer needs",
  "decode into a buffer of L slots succeeds if L is at least the length of the list and, for each block with fewer than 31 elements in a slice stored as blocks, there are 8 (for at most 8 elements) or 32 slots from the position of its first element on; otherwise it writes out of bounds. In particular a buffer of exactly size() slots is never enough for a list of fewer than 8 elements. uncompress writes out of bounds if the bitmap has fewer than 1024 words for each slice up to the last non-empty one.",
  "all valid lists, all buffer sizes and contents","overruns of a few slots usually go unnoticed at run time",
  ["include/decode.hpp","include/uncompress.hpp"])
p("C44","decode and uncompress programs: exactly when the buffer is large enough",
  "decode allocates universe() slots: it prints its totals if each list has room in them (C43) and otherwise writes out of bounds, for example for the collection [[4]] with universe 5. uncompress prints its totals if its bitmap reaches the last element of each list and otherwise writes out of bounds; for a universe of 4294901760 or more the 32-bit product wraps, the bitmap is empty, and each non-empty index leads to a write out of bounds.",
  "all good collections and universes","needs universes near 2^32 or near the list sizes",
  ["src/decode.cpp","src/uncompress.cpp"])
p("C45","the example program succeeds exactly when size() slots are enough",
  "For every valid list, in memory or through the file (8 bytes of length skipped), the example program ends with exit code 0 if a buffer of size() slots has room (C43), and writes out of bounds otherwise.",
  "all valid lists","all list shapes",
  ["src/example.cpp"])
p("C46","printing the statistics is undefined unless all 256 histogram entries are non-zero",
  "statistics::print converts num_integers[b] / num_blocks_in_chunks[b] to an integer for b = 1..256. If for each b some slice is stored as b blocks the integer averages are printed; otherwise a NaN is converted to uint64_t, which is undefined; so for each list with all elements below 255 * 65536.",
  "all good collections, all valid lists","the conversion silently gives some number on common hardware",
  ["include/util.hpp: statistics::print, elias_fano_bitsize"])
p("C47","the data generators write good collections, up to two exceptions",
  "With a universe below 4294901760 gen_uniform_data and gen_clustered_data --binary write a collection of strictly increasing lists whose list i has exactly the elements drawn for it. Exception 1: with a universe above 4294901760 gen_clustered_data never ends (its 32-bit slice bounds wrap). Exception 2: in text mode gen_clustered_data writes the left-over elements of std::unique, so that only the first list can be read back.",
  "all universes, all random draws, all sorting functions meeting their contract","randomness; universes near 2^32; unspecified values left by std::unique",
  ["tools/gen_uniform_data.cpp","tools/gen_clustered_data.cpp"])
p("C48","the query generators produce valid queries",
  "The queries of gen_random_select_queries are ranks inside of the sequences; those of gen_random_next_geq_queries are elements of the sequences (next_geq answers each with itself), provided each list has room in universe() slots, and otherwise the generator writes out of bounds; those of gen_random_pairwise_queries are sequence numbers.",
  "all good collections, all random draws","randomness; all sizes",
  ["tools/gen_random_select_queries.cpp","tools/gen_random_next_geq_queries.cpp","tools/gen_random_pairwise_queries.cpp"])
p("C49","the test programs accept what they are meant to accept",
  "Run on the index of a collection and the collection itself, test_contains, test_select and test_enumerator report that everything is good; test_decode does so if each list has room in universe() slots and otherwise writes out of bounds; test_uncompress likewise for its bitmap; test_intersect, test_union, test_intersect_many and test_union_many do so for all queries whose lists and results fit. test_next_geq and test_next_geq_enumerator do so if all elements are below 4293967295; otherwise, in test_next_geq, the loop behind the last element (a 32-bit bound, a 64-bit counter) does not end within 887288389945000036 iterations. test_next_geq_enumerator also accepts an index on which the enumerator gives wrong answers for longer jumps.",
  "all good collections, parameters, query streams, addresses, build modes","programs over collections of any size; the endless loop needs elements near 2^32",
  ["test/*.cpp","test/test_common.hpp"])
p("C50","what an accepting test program establishes",
  "For an arbitrary index file (any memory contents): if a test program reports that everything is good, then the number of lists is right and the tested operation returned the right answer for each list of the collection: decode and uncompress the list itself, select each element by its rank, contains true for each element, next_geq the first element not below v for each v up to the last element, the enumerators the elements in order; for each query the set operations returned the result computed from the two decoded (or enumerated) lists.",
  "all memories, collections, parameters, query streams","quantifies over all faulty index files",
  ["test/*.cpp"])
p("C51","command-line options",
  "In build and in the test programs the last occurrence of an option counts, options not given keep their default (density -1, size 0, no output file) and words that are not options are ignored. A value std::stod rejects ends the program with its exception. An option as last word of the command line is undefined: the null pointer behind the arguments is converted, or the loop runs past the end of argv. Every command line is of one of these kinds.",
  "all command lines, all conversions","unbounded command lines; reading behind argv usually goes unnoticed",
  ["src/build.cpp: main","test/test_common.hpp: TEST"])
p("C52","from the command line of build to the verdict of the tests",
  "On a good collection build writes the saved index to the file of the last --out, provided printing the statistics is defined (otherwise the program is undefined before it writes, C46), and nothing without --out; so the command lines of script/build.py (build collection 0.01 -o output) write nothing. A test program run on the file written and the collection, with the same --density and --size, or without --size on both sides whatever the --density, reports that everything is good.",
  "all good collections, command lines, density tests, addresses, build modes","whole programs over unbounded inputs",
  ["src/build.cpp","script/build.py","test/test_common.hpp","test/test_contains.cpp","test/test_select.cpp","test/test_enumerator.cpp","test/test_decode.cpp"])
p("C53","the example program, from its command line and standard input",
  "The last -o counts, any other word ends the program with exit code 1, a final -o is undefined. A count and as many numbers are read as they are. With fewer numbers the last one is repeated, and the builder throws on it; text that is no number counts as 0, and so does all that follows; with no number at all, none behind a positive count, or a count of 0 the program is undefined. For a valid list it ends with exit code 0 if size() slots are enough to decode it and writes out of bounds otherwise; with the statistics printed it is undefined for all lists below 255 * 65536.",
  "all command lines, all inputs","uninitialised variables and stream states; all inputs",
  ["src/example.cpp"])
p("C54","the test programs on the index of another collection",
  "Let the index be that of one collection and parameters and let the test program be given other ones. test_decode, test_select and (for strictly increasing lists) test_contains report that everything is good exactly if the lists of the test are the first lists of the index (in a release build: provided it has at least as many). So they notice every missing, additional or changed element and every list filtered out on one side only in front of another one, but neither further lists at the end of the index nor another universe. test_enumerator does not compare lengths: it accepts whenever each list of the test is a prefix of the corresponding one of the index.",
  "all pairs of good collections and parameters, addresses, build modes","all pairs of collections; which faults a test can miss is not shown by running it",
  ["test/test_decode.cpp","test/test_select.cpp","test/test_contains.cpp","test/test_enumerator.cpp","test/test_common.hpp"])
p("C55","which set operations may run at the same time",
  "pairwise_union uses its static scratch objects exactly if some slice is stored as a bitmap in one list and as blocks in the other one, or some block of a slice made of blocks in both lists has between 1 and 30 elements in one list and 31 or more in the other one; pairwise_intersection exactly in the first case. Of any number of unions, intersections or both in progress at the same time, if at most one union and at most one intersection use them then under every schedule none fails and each that has finished has the right result; it finishes after enough turns. One after the other, any number of calls is right.",
  "all valid lists, any number of calls, all schedules, all contents of the scratch objects","schedules and numbers of calls are unbounded; a race shows up rarely",
  ["include/union.hpp: ds_union_block, ds_union_chunk, pairwise_union","include/intersection.hpp: ds_intersect_chunk, pairwise_intersection"])
p("C56","union_many and intersection at the same time as other operations",
  "union_many and intersection of several sequences always use their static objects (bitmap, tmp, headers). Of two calls of union_many in progress at the same time one can return the elements of the other one's first slice in place of those of its own, for all arguments; so there is a schedule with a wrong result unless the two first slices have the same contents. The same holds for two calls of intersection on lists within one slice that have common elements. The four operations pairwise_union, pairwise_intersection, union_many and intersection share no static object with one another: with at most one call of union_many and one of intersection in progress, and two-way calls as in C55, every call is right under every schedule.",
  "all vectors of valid lists, all schedules, all contents of the scratch objects","schedules are unbounded; a race shows up rarely",
  ["include/union_many.hpp","include/intersection_many.hpp","include/uncompress_chunk_and_merge.hpp","include/uncompress_chunk_and_intersect.hpp"])
p("C57","What a query depends on",
  "The number of slices, the skip pointers and the slice headers come first in an encoding, followed by the bytes of the non-empty, non-full slices in order, at places given by the sizes of C35. If the bytes of some slices have been overwritten or cannot be read, the sequence can still be opened and its cardinality is right; contains(v) is right if the bytes of the slice of v are there, select(i) if those of the slice of the i-th element are (and out of range is recognised always), next_geq(v) if those of the slices of v and of the answer are, and pairwise_intersection if those of the slices that occur in both lists are. Conversely, if the slice of v has bytes and none of them can be read, contains(v) reads outside the memory. If the slice of v is stored as blocks, contains(v) needs of its bytes only the headers of the blocks and the data of the block of v, and select(i) the same for the i-th element: no byte of another block or of another slice. If instead the skip pointers have been overwritten or cannot be read, cardinality, decode, uncompress, the enumerator, pairwise_intersection, pairwise_union and union_many are right all the same, and so are contains(v) and next_geq(v) for v before the 33rd slice; if the skip pointers cannot be read, contains(v) and next_geq(v) are defined for no other v, and with more than 32 slices select is undefined for every rank.",
  "all valid lists, all sets of damaged slices, all contents of the damaged bytes (slices, blocks or skip pointers), all arguments","the set of damaged encodings is unbounded; a test sees one damaged file",
  ["include/s_sequence.hpp","include/contains.hpp","include/select.hpp","include/next_geq.hpp","include/intersection.hpp","include/builder.hpp"])
p("C58","What the point queries cost",
  "The number of bytes of memory on which the outcome of a point query depends is bounded by the number of stored slices n, independently of the number of elements: contains 6*((n-1)/32)+678, next_geq 6*((n-1)/32)+16524, select 8*((n-1)/32)+8326, cardinality 2n. For contains and next_geq the bound holds on every memory and for every sequence object, whether or not an encoding is there. In the other direction the search for the slice is linear: if the slice of the value comes after 32*J stored slices, contains and next_geq depend on at least 6*J bytes; and if the element of a rank comes after 32*J stored slices, or does not exist, select depends on at least 8*J bytes: the factors of the upper bounds. cardinality depends on exactly 2 bytes for each slice, on every memory on which it is defined.",
  "all valid lists, all memories holding the encoding (for contains, next_geq and cardinality: all memories), all values and ranks; lower bound: all sets of addresses that determine the answer",
  "A test measures times; it does not see how many bytes were looked at, and an implementation that looked at every element would pass every functional test.",
  ["include/s_sequence.hpp:59-159","include/contains.hpp","include/select.hpp","include/next_geq.hpp"])
p("C59","Exactly how many bytes after an encoding decode reads",
  "For every valid list there is an exact condition on the number of readable bytes after its encoding under which decode is defined: for each block with fewer than 31 elements in a slice stored as blocks, 16 bytes (up to 8 elements) or 40 bytes (more) from its first data byte on must be readable. Together with the exact condition on the output buffer (C43) it decides for every list, memory and buffer whether decode returns the list or is undefined. 31 bytes are always enough; none are needed if the slices stored as blocks are followed by one stored as a bitmap; a list of n < 31 elements inside one block of 256 values needs 16 - n (n <= 8) or 40 - n. For an index in a memory mapped file, where what can be read ends with the last page of the file, decode of the i-th sequence is defined exactly if its tail lies inside that page: always, when the last page has 31 bytes left; and for every page size there is a collection for which decoding the last sequence is undefined, whatever the output buffer.",
  "all valid lists, all numbers of readable bytes, all output buffers, all collections, all page sizes",
  "A test reads whatever happens to be mapped after the encoding, and only a file whose length falls in the last 30 bytes of a page reveals the fault.",
  ["include/decode.hpp:26-56","include/decode.hpp:58-110","include/s_index.hpp","test/test_decode.cpp"])
p("C60","Every counter of the statistics",
  "The statistics that building an index or a sequence returns are, in every counter and every entry of the three histograms, the numbers of a specification written in terms of the lists alone: how many slices each list spans, how many of them are empty, full, stored as bitmaps or as blocks; in the slices stored as blocks, how many blocks there are up to the last element, how many of them are empty, small or large; how many integers are in each class; and how many bits each part of the encoding takes. The entry 0 of the histogram of block cardinalities and the counter very_sparse_chunks stay 0. With at most 4290000000 lists no 64-bit counter wraps. The statistics and the length of the file do not depend on the order of the lists, on the universe in the first record or on the lists that are left out; for two collections in one file every counter is the sum, and the bits are the sum less the 192 bits that every index has.",
  "all good collections, all parameters, all valid lists",
  "The code has no test of the statistics at all; a counter that is off by one block or that misses a class is invisible in every functional test.",
  ["include/util.hpp:96-149","include/builder.hpp:8-56","include/builder.hpp:58-221","include/builder.hpp:229-270"])

p("C61","Which collection files the index builder accepts",
  "Every file of 32-bit words can be read in exactly one way as two words, complete lists each preceded by its length, and possibly a last list that is cut off. If the builder succeeds on a file, whatever is in it, then no list is cut off, every list has fewer than 2^32-1 integers, and in a debug build the first word is 1; a release build gives the same result for every first word. Conversely, when the complete lists that pass the filter are valid, the builder succeeds on exactly these files; on a file whose last list is cut off it reads past the end, in debug and release builds and whatever the filter says, and with a wrong first word a debug build aborts. Files of fewer than two words are never accepted.",
  "all files of 32-bit words, all parameters; for the converse all files whose kept complete lists are valid",
  "A truncated file is an input that no test uses, and the words after the end of a mapped file are zeros up to the next page, so the fault is silent on most files.",
  ["include/builder.hpp:227-269"])

p("C62","Alignment of the words that decode reads",
  "The code reads 16-bit and 64-bit words through casted pointers, which C++ allows only at multiples of 2 and of 8. With loads that check this, decoding the encoding of a list at address a returns the list exactly if a is even and every bitmap of the encoding (a slice stored as a bitmap, or a block of 31 or more elements in a slice stored as blocks) begins at a multiple of 8, and is undefined otherwise. A list without bitmaps is fine at every even address; a list whose first slice is a bitmap only at addresses that are 6 modulo 8, so in an index mapped at the start of a page the first sequence, if it is such a list, violates the rule; a list with a block of fewer than 31 elements (not a multiple of 8) between two bitmap blocks violates it at every address; and of two neighbours in an index of which the first has an odd number of bytes, one violates it wherever the index is.",
  "all valid lists, all addresses, all memories, all output buffers with room, all collections",
  "On x86-64 misaligned loads work, so no test can show the fault; it appears only with another compiler, processor or sanitizer.",
  ["include/s_sequence.hpp:14-25","include/s_sequence.hpp:60-110","include/decode.hpp:5-116"])

p("C63","Floating point: the density filter, the averages, the events",
  "With the arithmetic of IEEE 754: (1) a list that the filter keeps for its density, not for its length, is the list [0] or has a length over largest element above the threshold exactly; a list is dropped wrongly only if there is no double above the threshold and at most the exact quotient, and such lists exist; a negative or NaN threshold is no threshold, and with an infinite one no list passes for its density. (2) The averages that statistics::print converts to integers are the integer quotients of the counters, for every index with at most 2^51 elements; there are larger counters for which they are not. (3) gen_event of gen_clustered_data.cpp never reads behind its three events, whatever rand() returns: the rounded partial sums are the float 0.3, 0.5 and 1, and the quotient by RAND_MAX is at most 1; with the RAND_MAX of glibc a number up to 644245152 skips a slice, one up to 1073741888 includes it, and the program writes a good collection for all numbers.",
  "all lists, all thresholds, all counters, all values of RAND_MAX and all sequences of random numbers",
  "Rounding faults show up only for particular numbers (one in millions); the read behind the events would need the sum of the probabilities to round below 1 and the largest random number to be drawn.",
  ["include/util.hpp:77-82","include/util.hpp:205-241","tools/gen_clustered_data.cpp:17-95"])

p("C64","The text between the programs",
  "What the generators of queries print is read by the programs as it was meant: for every index and all random numbers, src/next_geq.cpp on the output of gen_random_next_geq_queries prints the sum of the queries times 4 (each is an element, so it is its own answer), src/select.cpp on the output of gen_random_select_queries the sum of the selected elements times 4, and the programs that take pairs run on exactly the pairs drawn. This needs the scanf of 64-bit glibc: by the C standard, scanf(\"%d\") of a query from 2^31 on, which the generator does print, is undefined, and so is atoi of an argument from 2^31 on. For every input of characters the programs do what the models on tokens (C41, C49, C53) do; src/example.cpp reads a printed list, and the first list of the text that gen_clustered_data writes; with fewer than two arguments the programs print the usage, and a second argument that is no number ends them with an exception.",
  "all indexes, all random numbers, all input texts, all arguments",
  "The programs are two ends of a pipe; a test shows one run of it. Values from 2^31 on work by luck of the library and a test with them passes.",
  ["src/next_geq.cpp:11-67","src/select.cpp:11-69","src/contains.cpp:34-60","src/intersect.cpp:37-63","src/union.cpp:37-63","src/example.cpp:28-37","tools/gen_random_pairwise_queries.cpp:5-21","tools/gen_random_select_queries.cpp:11-41","tools/gen_random_next_geq_queries.cpp:12-43","test/test_common.hpp:12-23"])

p("C65","What a corrupt index can do",
  "The code checks nothing of an index that it loads. On a memory with any bytes at all, every reader (cardinality, contains, next_geq, decode, uncompress, the enumerators, pairwise and many-way intersection and union) comes to a normal end when the type byte of every slice is 1, 2 or 3, when the memory can be read for the number of slices, the skip pointers, the headers and a fixed number of further bytes per slice (65536 where the offsets of headers are followed, 128 MB where skip pointers are), and when the output has room for 65536 integers per slice; the static buffers of the code are never exceeded. With any other type a release build is undefined and a debug build aborts; nothing else can happen. Exceptions: select can be undefined with legal types, when the header of a slice announces more elements than there are; the many-way intersection in a debug build aborts when the ids of the slices are not in order. None of the conditions can be replaced by what the index says about itself: there are bytes with legal types for which size() is 1 and decode overruns every buffer that is enough for one element, and bytes for which a query reads outside the file. Of the index file itself: opening it is defined exactly if 16 bytes can be read, and its size is the first word less 1 modulo 2^64, so that a first word 0 gives 2^64 - 1 sequences; operator[] is defined exactly if the offset and the two bytes at that offset can be read (a debug build aborts for an i that is too large); and damage to the three highest bits of the first word changes the size and nothing else.",
  "all contents of the memory, all sequence addresses, all arguments, all scratch contents, build modes",
  "A test or a fuzzer tries some corrupt files; that nothing else can happen on all of them cannot be tried.",
  ["include/s_index.hpp:23-37","include/s_sequence.hpp:14-159","include/contains.hpp","include/select.hpp","include/next_geq.hpp","include/decode.hpp","include/uncompress.hpp","include/intersection.hpp","include/union.hpp","include/union_many.hpp","include/intersection_many.hpp"])

p("C66","Alignment of the words that the queries read",
  "With loads that check alignment (as in C62), for the encoding of a list at address a: cardinality and uncompress keep the rules exactly if a is even. contains(v) answers exactly if a is even, a is 2 modulo 4 in case the search for the slice of v comes to a skip pointer (there is a 33rd slice and it is not after the one of v), and the bitmap with the place of v, if there is one, is at a multiple of 8. select(r) answers exactly if a is even, a is 2 modulo 4 in case there are more than 32 slices, and the bitmap with the element of rank r is aligned. next_geq(v) needs what contains(v) needs and that the bitmap with the answer is aligned. An enumerator that is run to the end needs what decode needs. In all other cases the query is undefined. So at an address that is 2 modulo 4 a list that decode may read can be asked anything; all ranks of a list can be selected exactly if decode may read it and (with more than 32 slices) the address is 2 modulo 4; and in an index mapped at the start of a page, select is undefined for every rank of the first sequence if that has more than 32 slices.",
  "all valid lists, all addresses, all memories, all arguments below 2^32, all collections",
  "On x86-64 misaligned loads work, so no test can show the fault; which words are read depends on the list and the argument.",
  ["include/s_sequence.hpp:14-159","include/contains.hpp","include/select.hpp","include/next_geq.hpp","include/uncompress.hpp","include/enumerator.hpp:12-42"])

p("C67","How good the chosen encoding is, and how its size changes",
  "Let the form of each slice (bitmap or blocks) and of each block (list or bitmap) be chosen freely, in the same layout. The encoding that the code writes is at most 205/109 times as long as any such choice, and at most 34/33 times if every slice that is not full has fewer than 32768 elements; both are reached up to the fixed bytes. It is the shortest exactly if no slice stored as blocks has a block of exactly 31 elements and no slice stored as a bitmap would take fewer than 8192 bytes as blocks. One more element makes the encoding shorter only if it completes its slice (by 8192 bytes); otherwise it adds 0 to 19 bytes, or up to 3840 if the slice comes to exactly 32768 elements. The encoding of a union is at most 6 bytes longer than both encodings, plus 3832 bytes for each slice in which the union but neither list has 32768 elements (finding 41: a union of two lists of 2186 bytes takes 8202 bytes). The encoding of a subset is not longer than that of the list if no slice of the list is full.",
  "all valid lists, all choices of forms, all elements added, all unions and subsets",
  "A test sees the sizes of the lists it has; a bound over all choices of forms and all lists needs an argument per slice and per block.",
  ["include/util.hpp:96-149","include/builder.hpp:8-56","include/builder.hpp:58-221","include/constants.hpp"])

p("C68","Exactly how many bytes after the encodings the pairwise operations read",
  "Let two encodings be in memory with p and q readable bytes behind them and then an unreadable one, and let the output have 23 spare slots. pairwise_intersection is right exactly if: for every two blocks of fewer than 31 elements with the same place, in slices both stored as blocks, unless both have more than 16 elements, 16 bytes (up to 16 elements) or 32 bytes from the start of each block are readable; and for every slice stored as blocks by one list and full in the other, what decode reads is readable. pairwise_union of encodings that do not overlap is right exactly if: for every slice or block that only one list has, what decode reads is readable; and for two blocks of fewer than 31 elements with the same place, 16 or 40 bytes from the first element above all those of the other block are readable (of the list with fewer blocks only if there is such an element; of the other also if there is none). In all other cases the operation is undefined. The union of a sequence with itself reads nothing behind the encoding. 31 bytes are always enough, 15 for the intersection if no slice is full. In a memory mapped index what is readable is the rest of the last page: the conditions hold or fail exactly as above, and for every page size there is a collection of lists [0,1] and [0] for which intersecting the first with the last sequence is undefined.",
  "all pairs of valid lists, all memories, all numbers of readable bytes, all buffers with room, all collections and page sizes",
  "A read behind a mapping faults only when the file ends within 31 bytes of a page boundary and the last lists have particular shapes; a test with a heap buffer never notices.",
  ["include/intersection.hpp","include/union.hpp","include/decode.hpp:5-116","include/uncompress.hpp","include/s_index.hpp"])

p("C69","Exactly how large the output buffer of the pairwise operations must be",
  "Under the conditions of C68 on the bytes behind the encodings, pairwise_intersection into a buffer, from any slot in it, is right exactly if the buffer has a slot for each element of the result and: for every two blocks with the same place, in slices both stored as blocks, there are from the place of the block in the result 8 slots (up to 8 matches) or 16 slots for each 16 elements of the longer one, if both have fewer than 31 elements and not both more than 16; one slot more than the elements, except the last one of the list, that a list of bytes has in common with a bitmap; and for each block of fewer than 31 elements of a slice of which the other list has all values 8 or 32 slots. pairwise_union of encodings that do not overlap is right exactly if there is a slot for each element, 8 or 32 slots for each block of fewer than 31 elements that only one list has, and, for two such blocks with the same place, 8 or 32 slots for the elements of one above all those of the other, from their place at the end of the block (for the list with fewer blocks only if there are any). In all other cases they are undefined. The union of a sequence with itself needs only a slot for each element. 23 slots more than elements are always enough, 8 for the intersection if no slice is full. The programs intersect and union, with one slot for each value of the universe, print the sum of the sizes if each query read meets these conditions and are undefined otherwise; in a universe of fewer than 8 values intersect is undefined as soon as there is a query, union as soon as a query names two different sequences.",
  "all pairs of valid lists, all memories, all numbers of readable bytes, all buffers and positions, all collections, page sizes and lists of queries",
  "A store a few slots behind a vector lands in the slack of the allocator; it needs results that nearly fill the universe and particular shapes of the last block.",
  ["include/intersection.hpp","include/union.hpp","include/decode.hpp:5-116","src/intersect.cpp","src/union.cpp"])

p("C70","Alignment of the words that the set operations read",
  "With 16-bit loads that must be at even addresses and 64-bit loads that must be at multiples of 8, pairwise_intersection of two stored lists gives the intersection if both addresses are even and, for each value of one list, the bitmap it is in (of its slice, or of its block in a slice stored as blocks) is at a multiple of 8 whenever the other list has a value in that slice and, if the slice is stored as blocks, has the whole slice, or stores it as blocks too and has a value in the same block; it is undefined in all other cases. For pairwise_union the same with the condition that the other list does not have the whole slice and does not store as a bitmap a slice that this one stores as blocks. union_many gives the union exactly if all addresses are even and each slice that is stored as a bitmap, and of which an earlier list has a value, is at a multiple of 8. The many-way intersection (lists of more than 32 slices being at addresses that are 2 modulo 4) gives the intersection exactly if all addresses are even and, with the lists in the order of their lengths, for each list but the first: each slice that it stores as a bitmap, that all lists have, and of which the lists before have a value in common, is at a multiple of 8; otherwise it is undefined, and it is undefined too if the search for the first slice passes 32 slices of a second list at an address that is not 2 modulo 4. Lists that decode may read can be combined; lists without a common slice can be intersected and, by union_many, united anywhere; a list with itself can be intersected and united exactly where decode may read it; two neighbours of an index that are one and the same slice, both stored as a bitmap, can be neither intersected nor united within the rules wherever the index is loaded.",
  "all pairs and lists of valid lists, all addresses, all memories, all collections",
  "x86 executes the misaligned loads, so tests pass; a sanitizer reports only the addresses that the allocator happens to give.",
  ["include/intersection.hpp","include/union.hpp","include/union_many.hpp","include/uncompress_chunk_and_merge.hpp","include/intersection_many.hpp:8-74","include/uncompress_chunk_and_intersect.hpp"])

p("C71","Results can be stored again: nested operations obey the laws of sets",
  "The non-empty result of an intersection or union is itself a list that can be built and stored. A formula of intersections and unions over stored lists, evaluated from the inside to the outside by building every intermediate result (an empty one is answered by the caller, as it cannot be built), in whatever memories, scratch states and buffers that are large enough, always completes and yields in increasing order exactly the set that the formula means. So formulas with the same meaning (distributive law, absorption, ...) yield the same list, and the same bytes when it is built. The same holds when intersection and union_many with any number of operands are nested with the operations of two. For two stored lists the number that pairwise_union returns plus the number that pairwise_intersection returns is the sum of their sizes; the intersection returns the size of the first exactly if it is a subset of the second, 0 exactly if they are disjoint, and the same number as the union exactly if the lists are equal.",
  "all formulas, all valid lists in them, all memories, scratch states and buffers of each step",
  "The laws quantify over all nestings; a test evaluates a few, and every intermediate result can hit another combination of slice and block forms.",
  ["include/intersection.hpp","include/union.hpp","include/builder.hpp"])

p("C72","Exactly how many bytes after the encoding the enumerator reads",
  "Let the encoding of a list be in memory with p readable bytes behind it and then an unreadable one. Starting the enumerator and moving it k times is right (value() is the element of rank k, or the given value after the last one) exactly if, for every block of fewer than 31 elements in a slice stored as blocks whose first element has rank at most k, 16 bytes (up to 8 elements) or 40 bytes from the start of the block are readable; otherwise it is undefined. To reach the last element it needs exactly what decode needs (C59), so the loop over all elements is right if decode is and undefined otherwise. In a memory mapped index what is readable is the rest of the last page of the file. For one element in each of the first two slices, 12 bytes are needed for the first element and 15 for the second.",
  "all valid lists, all memories, all numbers of readable bytes, all numbers of moves below 2^32, all collections and page sizes",
  "The reads behind the encoding fault only at the end of a mapping; whether an enumeration that stops early is affected depends on the shape of the list and the place where it stops.",
  ["include/enumerator.hpp:12-42","include/decode.hpp:5-116","include/s_index.hpp"])

p("C73","The output buffer is only written",
  "decode, pairwise_intersection, pairwise_union, union_many and intersection only store into their output buffer. So for all contents of memory (encodings or not) and of the static buffers: in a larger buffer the results are the same and the slots added are left as they were, unless the smaller buffer was exceeded; if the output starts d slots later in a buffer with d more slots in front, the results (also the errors) are the same and the d slots are left as they were, so nothing before the start is written; in a buffer of the same size with other contents the same error or the same results occur, and every slot that is not equal afterwards is as it was. The operations on many encodings need room for exactly their result: with it they write the result and nothing else, with any less they store outside the buffer.",
  "all memories, all sequence objects, all states of the static buffers, all output buffers and positions; for the room all collections of valid lists",
  "A test runs with one buffer, usually a large cleared one; stores that are behind the result, or a dependence on what the buffer held, show only in other buffers.",
  ["include/decode.hpp:5-116","include/intersection.hpp:21-274","include/union.hpp:10-258","include/union_many.hpp:8-45","include/intersection_many.hpp:8-74","include/util.hpp"])

p("C74","What the operations return they have written",
  "If decode, pairwise_intersection, pairwise_union, union_many or intersection returns a count n, then all n slots from the start of the output were written by this call, with values below 2^32 that depend only on memory and the static buffers: in every other output buffer of the same size the call returns the same count and the same n values. This holds for all contents of memory, also if it holds no encodings, so a corrupt index never makes an operation return what was in the output buffer before. pairwise_intersection needs full rows in the shuffle table (with an empty table a block intersection counts a match without storing it).",
  "all memories, all sequence objects, all states of the static buffers, all output buffers and positions",
  "A count that is one too large, or a store that is skipped in one branch, returns what the buffer held; in a cleared buffer, or in one reused for the same query, that can be the right value.",
  ["include/decode.hpp:5-116","include/intersection.hpp:21-274","include/union.hpp:10-258","include/union_many.hpp:8-45","include/intersection_many.hpp:8-74"])

p("C75","The default-constructed sequence",
  "An object made with s_sequence() (no slices, null pointers) is treated as the empty set, without any read or write, by cardinality and size (0), decode (0 values), contains (false for every 32-bit value), select (false, the reference is left alone), next_geq and next_geq_enumerator for every bound but 0 (not found), pairwise_intersection on either side with any object as the other operand, and the many-way intersection of stored lists one of whose operands is such an object, whatever std::sort does with ties. union_many gives the same result on any objects and any memory whether such objects are among them or not, and 0 if there is nothing else. The other operations do not accept it: next_geq(0) and next_geq_enumerator with bound 0, pairwise_union (either side) and enumerator read through the null pointer, and uncompress returns 0 in a release build and fails its assertion in a debug build.",
  "all memories (with an unreadable null page for the undefined cases), all stored lists as other operands, all bounds, values, ranks, buffers and histories of bounds",
  "Tests default-construct sequences only to assign to them; the bound 0 differs from all other bounds because the id of an ended iterator, 65536, shifted by 16 in 32 bits gives 0.",
  ["include/s_sequence.hpp:10-14","include/s_sequence.hpp:60-65","include/s_sequence.hpp:74-81","include/next_geq.hpp:142-176","include/next_geq_enumerator.hpp:23-110","include/union.hpp:167-258","include/union_many.hpp:8-45","include/intersection.hpp:194-274","include/intersection_many.hpp:8-74","include/enumerator.hpp:12-21","include/uncompress.hpp:94-107"])
p("C76","How many rounds the set operations take",
  "On any memory and for any objects: the search of intersection for common slices takes at most two rounds for each slice of the first sequence after sorting; the loop of pairwise_intersection at most two for each slice of the operand with fewer slices; the main loop of pairwise_union at most one less than both have slices together; the loop of union_many at most one for each slice of each sequence. With more fuel none of these outcomes changes. On stored lists the loop of union_many takes exactly one round for each slice that one of the lists has, the second phase of intersection runs exactly once for each slice that all lists have, and the bound of the search is met exactly by two lists whose slices alternate, though they have no slice in common.",
  "all memories, all objects, all states of the static buffers; exact numbers for all stored lists",
  "A search that repeats rounds without progress gives the same result, only later; the worst case needs lists whose slices alternate.",
  ["include/intersection_many.hpp:18-40","include/intersection_many.hpp:42-70","include/intersection.hpp:194-274","include/union.hpp:167-245","include/union_many.hpp:16-42"])

p("C77","The commands of the README, one after the other",
  "Whatever is drawn, in a universe whose last slice has at least 16417 values and whose last block has at least 31 (as 1000000), every list that gen_clustered_data can draw fits with what the vector code writes into one slot per value of the universe, and so does the intersection of any two. Hence gen_clustered_data, build, decode, gen_random_pairwise_queries, intersect and test_decode succeed when run one after the other as the README has them, each on the files that the ones before have written: decode sees all lists and all their numbers, intersect has 11 times the sizes of the intersections of the pairs drawn, test_decode finds everything good. This supposes that no list is empty, that 31 bytes of the last page of the index are unused, and that the statistics are printed. With the statistics as they are, build is undefined if for some b from 1 to 256 no slice is stored as b blocks, so always with fewer than 256 slices, and the quick start of the README is undefined whatever is drawn. With a last slice of fewer than 31 values (not 8) there is a list without room, and in every universe two lists can be drawn whose union does not fit, so that union is undefined. Words and text written to a file are read back; without its arguments each program prints its usage only.",
  "all numbers of lists, universes and queries in the stated ranges, all draws, all page sizes and addresses, both readings of atoi",
  "A test runs one session with one seed; that no draw can make a later command read or write out of bounds is a statement about all seeds.",
  ["README.md:60-72","README.md:184-188","README.md:265-301","README.md:313-321","tools/gen_clustered_data.cpp:113-133","tools/gen_uniform_data.cpp:36-54","tools/gen_random_pairwise_queries.cpp:5-10","src/decode.cpp:37-46","src/cardinality.cpp:33-42","src/uncompress.cpp:41-50","src/build.cpp:8-51","src/intersect.cpp:37-63","test/test_decode.cpp:16","script/queries.py"])

p("C78","The scripts",
  "Whatever the files are called and contain, script/build.py leaves every file as it was: -o is not an option of build. On a good collection its three commands still end with exit code 0. If the index that script/queries.py is given does not exist, as after script/build.py, none of its fifteen commands prints a result. With an index file, and query logs made by the three tools under the names of the script, each command prints the same all three times: decode the numbers of sequences and integers; intersect and union 11 times the sizes of the results of the 1000 pairs drawn, if each pair can be answered within a buffer of the universe's size (C69), and otherwise the command is undefined; select 4 times the sum of the elements at the 1000 ranks drawn for each sequence; next_geq 4 times the sum of the elements drawn. If no two lists have more than universe - 32 elements together, all commands print their results.",
  "all disks, file names, collections, indexes with at least one list of values below 2^31, all draws, both readings of atoi, all page sizes and addresses (31 unused bytes in the last page)",
  "The scripts ignore the exit status of what they run, so that nothing notices that no index was written; which queries are undefined depends on the lists and on the draws.",
  ["script/build.py:3-8","script/queries.py:3-20","src/build.cpp:8-51","src/decode.cpp:37-46","src/intersect.cpp:37-63","src/union.cpp:37-63","src/select.cpp","src/next_geq.cpp","tools/gen_random_pairwise_queries.cpp","tools/gen_random_select_queries.cpp","tools/gen_random_next_geq_queries.cpp"])

p("C79","The test programs that read queries, from their command lines",
"test_intersect, test_union, test_intersect_many and test_union_many print the usage and read nothing when an argument is missing, end with an exception when the number of queries is no number or makes reserve() ask for more than 2^63-1 bytes, and otherwise run the tests on the queries read from standard input: one pair to a line as gen_random_pairwise_queries prints them gives one tested query per pair in the first two programs and one per pair of different numbers in the other two, and everything is good. test_intersect is good exactly if each decoded list has room in a vector of universe() slots; test_union exactly if in addition each union can be written there (C69); the other two, on any lines that name sequences of the index, exactly if each result has at most universe() elements. Otherwise they write outside their vectors. A line without a number makes the programs that read lines abort in a debug build and is skipped in a release build. When the programs that read lines report that everything is good, each tested result is the intersection or union of the lists which the enumerators produce, whatever the index file is.",
"all command lines; all standard inputs (all whose tokens are numbers, for the programs that read pairs); all index files for the soundness; all good collections, all lists of pairs of their sequences for the rest; debug and release builds; both conversions that scanf may do",
"The programs are the tests; whether they are right on other inputs than the ones at hand, or write outside their vectors on small universes, is not something that they report.",
["test/test_intersect.cpp:12-80","test/test_union.cpp:10-72","test/test_intersect_many.cpp:57-121","test/test_union_many.cpp:70-134","test/test_common.hpp:12-23"])
p("C80","next_geq_enumerator when the bounds go back",
"A next_geq_enumerator may be asked for bounds smaller than earlier ones, but it does not go back: a bound not above the beginning C of the slice of the last answer is answered with the first element from C on, and a larger one, in a slice written as blocks, as if it were at least the beginning of the block that has been reached there. So every answer is an element not below its bound, or not_found, and the answer to w after v is right exactly if the list has no element from w up to the raised bound; going back inside the block of the last answer, or inside a slice written as a bitmap or as a whole, is always right, and after one not_found every answer is not_found. The bound 0 after not_found is undefined behaviour (an abort in a debug build): the iterator at the end has base 0, and the enumerator reads the header behind the last one.",
"all valid lists, all sequences of bounds below 2^32 in any order that do not contain 0 after the end, and that do not move forward by more than 32 non-empty slices at once or ask a list whose slice sizes repeat every 32 slices; debug and release builds",
"The only program that uses the enumerator asks for growing bounds; the interface does not say that going back is not allowed, and for many bounds the answers are right.",
["include/next_geq_enumerator.hpp:10-110","include/s_sequence.hpp:72-134","include/next_geq.hpp:19-35"])
p("C81","What a whole history of next_geq_enumerator calls costs",
"Over all calls of next_geq on one next_geq_enumerator together, however many there are and in whatever order the bounds come, the iterator moves over at most as many slices as the list has non-empty slices (a jump counts as 32), and the cached position moves over at most as many blocks as the slices written as blocks have non-empty blocks; each of the two is at most the number of elements. The bounds do not depend on the bytes being an encoding: on any memory they hold with the numbers that the header of the list announces, so at most 256 blocks a slice. The bounds are reached. Making the enumerator and all the calls together depend on at most 6 bytes for each non-empty slice, 2 bytes for each of these blocks and 16396 bytes for each call.",
"all histories of calls with any bounds; any memory, and all valid lists in memory; debug and release builds",
"A cost summed over all histories is not visible in any one answer, and a wrong renewal of the cached position (beginning the slice again at every call) gives the same answers.",
["include/next_geq_enumerator.hpp:10-110","include/s_sequence.hpp:99-121"])
out=os.path.join(os.path.dirname(__file__),"..","properties.jsonl")
if __name__=="__main__":
    with open(out,"w") as f:
        for x in P: f.write(json.dumps(x,ensure_ascii=False)+"\n")
    print(len(P))
