# Formal model of jermp/s_indexes in Lean 4

Source modelled: `/repo/include/*.hpp` (whole library) plus small parts of `/repo/src`.
Everything is in `/verif/lean/Verif`.

## 1. How the code is modelled

* **Outcomes.** `Res α = Except Err α`. `Err` distinguishes `ub` (out-of-bounds read/write, `ctz(0)`,
  `__builtin_unreachable`), `abort` (failed `assert` in a debug build), `exc` (C++ exception) and
  `diverge` (a fuelled loop ran out of fuel). A theorem whose conclusion is `= .ok ...`
  therefore also says: no UB, no failed assertion, no exception, termination.
* **Input memory** is one flat partial map `Mem = Nat → Option UInt8` (address ↦ byte, `none` = not
  readable). Pointers are addresses. Sequences live anywhere in it, so pointer comparisons such as
  `r != end_l` in `ss_union_block` are modelled as they are.
* **Output buffers** are `List Nat` (the length is the capacity); every store is bounds-checked.
  SIMD stores write all their lanes, so over-writes are visible.
* **Integers** are `Nat` with an explicit `u8/u16/u32/u64` truncation where the C++ type truncates
  or may wrap (e.g. `s.right += chunk_size`, `id() << 16`).
* **Loops** are fuelled structural recursions; the fuel is computed from the loop's own bounds.
* **assert**: every function with assertions takes `dbg : Bool`; `dbg = true` is a debug build, `dbg =
  false` a release build (CMake's default; `-DNDEBUG`). Theorems quantify over `dbg` unless stated.
* **Static scratch buffers** are explicit arguments (arbitrary previous contents).
* **Intrinsics / inline asm** (`ctz`, `clz`, `popcount`, `pdep`, `tzcnt`, `bt/bts/shrx`, `cmpestrm`,
  `pshufb`, `cvtepu8_epi32`, …) are written out from the Intel manual.

## 2. Modules

| module | contents |
|---|---|
| `Verif/Spec.lean` | the specification vocabulary used in the theorem statements (no model code) |
| `Verif/Model/*.lean` | the model, one file per header |
| `Verif/Proof/*.lean` | helper lemmas |
| `Verif/Props/*.lean` | the property theorems + non-vacuity examples |

## 3. Proof plan

1. *Representation predicates*: `BlocksAt`, `ChunksAt`, `SeqAt m a cs` say what bytes at address `a`
   mean (list of chunks → list of blocks → list of values).
2. *Encoder*: `encode xs = ok bytes`, and bytes loaded at `a` satisfy `SeqAt`.
3. *Readers*: each reader is proved against `SeqAt` by induction on chunks/blocks/words.
4. *Properties*: composition of 2 and 3.

| property | model | proof |
|---|---|---|
| C01 | builder, decode | encoder correctness + induction over chunks/blocks/words |
| C02 | builder with 32-bit wrap of `s.right` | refutation: general theorem about the produced bytes |
| C03 | cardinality | induction over chunks |
| C04–C06, C32 | contains/select/next_geq, iterator skips | loop invariants over chunk groups, chunks, blocks, words |
| C07, C08 | uncompress | word-level invariant, frame |
| C09 | enumerator as a state machine; exactly how long it stays at its end | invariant over histories of `next`; `m_i` is a 32-bit counter |
| C10, C11 | intersection.hpp, union.hpp with SIMD semantics | merge inductions at three levels |
| C12, C13, C30, C31 | intersection_many.hpp, union_many.hpp | loop invariants over candidate search / min-id sweep |
| C14 | corollary of C10–C13 (results are a function of the sets; scratch arbitrary) | |
| C15 | next_geq_enumerator state machine | invariant over monotone histories; counterexample evaluated in the kernel; position of the data pointer after any jump, as a sum of slice sizes |
| C16, C17 | chunk_cardinality, encode_sequence, builder loop | case analysis/induction |
| C18, C19, C29 | s_index builder, save format, mmap, operator[] | induction over the collection |
| C20, C21, C25 | statistics | encoder invariant |
| C22–C24 | bounds are part of every reader theorem | + concrete overrun witnesses |
| C26–C28 | corollaries of C01, C04 and of the encoder's append form | |
| C33 | `dbg` quantified in all theorems | |
| C34 | interleaving model of two callers sharing the scratch buffer | witness + sequential theorem |
| C35, C36 | exact size and histograms | encoder invariant over blocks and slices |
| C37, C38 | every loop, arbitrary memory | termination measures; `.diverge` excluded for every function |
| C39 | builder on unsorted lists | what acceptance implies; witnesses for silent misencoding |
| C40–C42 | programs in `src/` on a saved index | loop invariants over sequences, queries and runs |
| C43–C45 | exact room of `decode`/`uncompress`; the programs that allocate it | need computed over blocks and slices; both directions |
| C46 | `statistics::print` | histograms of C36; first zero entry |
| C47, C48 | programs in `tools/`, for all random numbers and sorting functions | sets of drawn elements; the queries are inside the domains of C41, C42 |
| C49 | programs in `test/` on the file that the builder writes | composition of the reader theorems; loop over the collection as a loop over the kept lists |
| C50 | programs in `test/` on any memory | inversion of the programs: `good` never becomes true again |
| C51 | option loops of `build.cpp` and `TEST` | induction on a grammar of command lines |
| C52 | `build.cpp`, then the programs in `test/` | composition of C51, C18, C46, C49 |
| C53 | `example.cpp` | induction on the input; composition with C16, C45, C46 |
| C54 | programs in `test/` on the index of another collection | acceptance for a prefix; C50 determines the answers, the reader theorems the lists |
| C55 | `pairwise_union`, `pairwise_intersection` as programs, any number of them in progress | programs without steps on the shared state, both directions; induction on the schedule |
| C56 | `union_many`, `intersection` as programs | a program alone is the function of C12/C13; the state before the bitmap is decoded; independence of programs on separate components of the state |
| C57 | point queries, pairwise_intersection | the iterator lemmas hold for any predicate on (address, slice) in place of "the bytes of the slice are there"; each query uses that predicate for the slices it concerns only; damaged skip pointers (Props/SkipPointers.lean): the loops of the operations other than the point queries need the iterator invariant only, which does not mention the pointers; single blocks (Props/LocalBlock.lean): `BlockAt`, the headers of all blocks and the data of one |
| C58 | contains, select, next_geq, cardinality | compositional count of the addresses an outcome depends on (`Costs`); the jump loop makes one step per 32 slices, and the header (or the count) that ended it also ends the loop over single slices within 32 steps; lower bound by making single bytes unreadable |
| C59 | decode; the mapped index | every step of decode as "defined exactly if the output index and the read address stay below their ends, otherwise ub"; maxima over blocks and slices turned into the condition of the specification by induction from the back |
| C60 | the statistics | per-slice and per-list contribution of every counter by induction over the encoder (EncodeSeq, StatsDelta, Index); then each sum over chunks and blocks of the builder is turned into a count over the list; full equality of the record; from the sums over the kept lists: any order, and collections in one file |
| C61 | index builder on arbitrary files | unique parse by induction on the length; a successful run of the loop yields a parse (induction on the iterations); the loop passes complete lists and fails at the first read of one that is cut off |
| C62 | decode with loads that check alignment (Model/Aligned.lean) | where plain decode succeeds, the checked one gives the same result or is undefined, by induction over blocks and slices; then from the representation to the positions of the bitmaps in the specification |
| C63 | the floating-point computations (Model/Float.lean, Model/Events.lean) | rounding to nearest on rationals with natural numerators: monotone, the identity on representable values, nearest; everything else from these three facts, thresholds at concrete points by kernel evaluation |
| C64 | the text that the programs print and read (Model/Text.lean) | a scanner on characters, refinement to the token models of C41, C47, C48, C49, C53 by a lexer `lex`; printed numbers scan back (induction on the digits) |
| C65 | every reader on arbitrary bytes | an outcome is `Safe`: normal with a postcondition, or the `unreachable` of a type that does not exist; composed along the code. Offsets of headers and skip pointers are bounded per slice, so the pointer of the k-th slice is at most k times the bound behind the data; cursors of outputs advance by at most 65536 per slice. For the many-way intersection: every header found in the first pass occurs in every sequence, so the second pass never comes to an end of one. Opening and indexing a file of arbitrary bytes by cases on which words are readable |
| C66 | the queries with loads that check alignment (Model/AlignedQueries.lean) | `Gated P x y`: with P the checked function x is the plain function y, without P it is undefined; composed along the code, so the condition collects what is read; then from the representation to the positions of the bitmaps |
| C67 | C35 (exact size) | per slice and per block inequalities between the cost of the form chosen and of any other form, summed over `range 65535` and `range 256`; one more element changes one term of each sum |
| C68 | the pairwise operations; the mapped index | every step of the operations as "defined exactly if its vector loads stay below the ends of the memory, otherwise ub", for each pair of blocks, of slices and of the merges over both (`Pairs`, `Merged`), then turned into conditions on the numbers of elements per block |
| C69 | the pairwise operations with any output buffer; the programs `intersect` and `union` | every step as "defined exactly if its loads stay inside the memory and its stores inside the buffer, otherwise ub"; the position of each step in the buffer is the number of elements of the result below its block; then turned into conditions on the numbers; loops of the programs as an exact chain of their steps |
| C70 | `pairwise_intersection`, `pairwise_union`, `union_many` and the many-way `intersection` with loads that check alignment (Model/AlignedSets.lean, Model/AlignedInter.lean) | `Gated` as for C66, along the merges of blocks, slices and lists; the condition on two lists of chunks as a statement about the pairs with the same id (and, for the union, about the chunks without partner), about many as `List.Pairwise`; for the many-way intersection a condition along the sorted lists that ends when nothing is left in common; then slice by slice to the values of the lists |
| C71 | evaluations of formulas as a relation `Evaluates` over executions of `build_sequence`, `pairwise_intersection` and `pairwise_union` | induction on the evaluation with C10, C11; with any number of operands a relation `Computed` on sets (Props/AlgebraMany.lean), with C12, C13; canonical encodings (C26); counting by permutations of lists without repetition |
| C72 | executions of `Enum.init` and `Enum.next` in a memory that ends `pad` bytes behind the encoding; the condition `TailTo` in `blockStart` and `blockCard` | invariant `EnumOn` that carries the bytes already needed; per-slice form of C59 (`slice_tail_iff`) |
| C73 | `decode` and the set operations on two output buffers, any memory | logical relation: if storing the same value at corresponding slots keeps two buffers related, so does every operation (`Stores`, `Sim`, one lemma per function); three relations give the three statements, the exact room of the many-way operations follows from C12, C13 and the larger buffer |
| C74 | `decode` and the set operations on any memory | invariant `Fill`: the slots up to the position reached hold 32-bit values; run on a buffer of 33-bit values it shows that they were stored, C73 carries that over to any buffer |
| C75 | the object made by the default constructor, in every operation | evaluation; for `union_many` the lists of iterators with and without such objects are related by a filter, kept by every step, on any memory |
| C76 | how many rounds the loops of the set operations take | more fuel does not change an outcome; potential functions (twice what is left of the first iterator, plus one if it is on the candidate); exact numbers by induction over the slices |
| C77 | the commands of the README, one after the other | a drawn list leaves 32 slots or has the whole end of the universe; composition of C47, C52, C44, C64, C68, C69, C53 over a disk; pigeonhole for the slices |
| C78 | script/build.py and script/queries.py | words that are no options (C51, C52) leave the disk as it is; composition of C44, C64, C69 over a disk |
| C79 | the test programs that read queries, from their command lines | Model/TestMains.lean joins the argument handling of the mains (C64) to the loops of C49 and C50; exact room conditions by `forEach_exact` from C43, C69, C73 |
| C80 | next_geq_enumerator when the bounds go back | the state of C15 with the exact block reached (Proof/GeqBack.lean); every bound is raised to the slice or block reached, and the answers are those of a recursive function on the list |
| C81 | what a whole history of next_geq_enumerator calls costs | copies of the functions in a monad with three counters (Proof/GeqCount.lean), equal to the model without them; an invariant with the blocks left in the cached slice and the first slice not cached yet as potential; the bytes read are paid by the moves (Proof/GeqReads.lean) |

## 4. Trusted base

**Checked by the kernel.** Every theorem is checked by the Lean 4.33.0 kernel. There are no axioms of our
own, no `sorry`, no `native_decide`, no `bv_decide`, no `implemented_by`/`extern`/`unsafe`. Concrete
witnesses use `decide +kernel` (evaluation inside the kernel). The theorems depend on at most the three
standard axioms `propext`, `Classical.choice`, `Quot.sound` (most on all three, through `omega`/`simp`;
a few only on `propext` and `Quot.sound`).

**Trusted without proof:**

1. That the definitions in `Verif/Model` say what the C++ says. Each definition cites its file and
   lines and follows the control flow statement by statement; nothing is generated.
2. `Verif/Spec.lean` and `Verif/SpecIndex.lean` (what "valid list", "stored", "collection", "kept"
   mean), and the statements of the theorems in `Verif/Props`.
3. The meaning of intrinsics and inline assembly (`Model/Machine.lean`, `Model/Util.lean`,
   `Model/Intersection.lean`), written from the Intel manual.

**Assumptions that appear as hypotheses or parameters:**

* `table.hpp` (the shuffle masks of `INTERSECT`) is not in the repository. The table is a parameter
  `tab`; the intersection theorems assume `TabOk tab` (row `mask` moves the selected bytes to the front).
  `TabOk` is satisfiable (an instance is constructed), and the termination theorems do not need it.
* `std::sort` in `intersection_many.hpp` is a parameter; the theorems assume only `SortOk` (a permutation
  ordered by the key), so they hold for any tie-breaking.
* The floating-point test `double(n) / universe > density` is an arbitrary function of length and last
  element in the models of the builder and the programs; `C19_density` relates it to the exact quotient
  for every monotone rounding, and C63 computes it by the rules of IEEE 754 (round to nearest, ties to
  even, no extended precision). The events of gen_clustered_data.cpp and the averages of
  `statistics::print` are treated the same way: the first models leave the floating point out, C63 puts it
  in and shows when nothing changes. `std::log2` (util.hpp:92) stays a parameter.
* `scanf("%d")`, `std::atoi`, `std::stoull`, `operator>>` and `std::getline` (library functions) are written
  down in Model/Text.lean, in the default locale. The conversion of a number outside of `int` is a
  parameter with two instances: undefined (C standard) and the low 32 bits of `strtol` (64-bit glibc).
  What a minus sign gives with `operator>>` into an unsigned integer is a parameter.
* `essentials::save` (external, not in the repository): each vector is written as its 64-bit length
  followed by its elements. This is the format `s_index::mmap` reads. `mm::file_source` (external): the
  file's bytes, at some address.

**Simplifications of the model** (also stated at the definitions):

* Output and scratch buffers are separate objects; they do not alias the memory that holds the index.
* Alignment is not modelled, except in Model/Aligned.lean, Model/AlignedQueries.lean, Model/AlignedSets.lean and Model/AlignedInter.lean (the code reads 16/32/64-bit words at odd
  addresses; fine on x86-64, formally undefined in C++). C62, C66 and C70 say for which lists and addresses
  `decode`, the queries and the set operations keep the alignment rule.
* Pointer arithmetic is on unbounded addresses; forming an out-of-range pointer without accessing it is
  not an error.  The pointer steps `(id - prev) * words` of uncompress.hpp:50 and 99 are computed in
  unsigned 64-bit arithmetic; where an id is below the previous one (only in an encoding that no builder
  wrote, C65) the model moves the pointer backwards, as the wrapped addition does on the machine.
* The statistics counters and the output length are unbounded. C60_no_wrap shows that the 64-bit counters
  do not wrap.
* Allocation never fails.
* The inline assembly of `uncompress_sparse_block` (uncompress.hpp:15-27) writes memory through a pointer
  operand but declares no "memory" clobber, so a compiler may keep earlier contents of that memory in
  registers across it. The model takes the writes to be seen by the statements that follow, which is what
  the code intends and is not guaranteed by the text.
* Concurrency (C34, C55, C56): calls interleave at the granularity of one phase of scratch-buffer use. (C34:
  two calls; C55, C56: any number.) The vector that `intersection` sorts belongs to its caller and is not
  shared between calls. The reading of the immutable index and the writing of the call's own output are
  not interleaved, since no other call writes there.
* `diverge` stands for a loop that exceeds a bound computed from its arguments. C37 and C38 show that the
  bounds are never exceeded except in the one case named in C37, where no bound suffices.

**Modelled code** (all of `include/`): `builder.hpp`, `building_util.hpp`, `constants.hpp`, `contains.hpp`,
`decode.hpp`, `enumerator.hpp`, `intersection.hpp`, `intersection_many.hpp`, `next_geq.hpp`,
`next_geq_enumerator.hpp`, `s_index.hpp`, `s_sequence.hpp`, `select.hpp`, `uncompress.hpp`,
`uncompress_chunk_and_intersect.hpp` (the functions that are called), `uncompress_chunk_and_merge.hpp`,
`union.hpp`, `union_many.hpp`, and of `util.hpp` the constants, bit tricks, filter, counters and the last loop of
`statistics::print`. Of `src/`: `cardinality.cpp`, `contains.cpp`, `decode.cpp`, `intersect.cpp`,
`next_geq.cpp`, `select.cpp`, `uncompress.cpp`, `union.cpp`
(`Model/Tools.lean`; standard input is a list of tokens there, and of characters in `Model/Text.lean`, which
also has the mandatory arguments of the programs that read queries and of the generators of queries), `build.cpp` and `example.cpp` (`Model/Main.lean`, with the
options of the test programs; `std::stod` and `std::atoi` are parameters). All of `tools/` (`Model/Generators.lean`; random
numbers, `std::sort` and what `std::unique` leaves behind are parameters). All of `test/` (`Model/Tests.lean`, and `Model/TestMains.lean` for the command lines of the programs that read queries;
the result is the number printed and whether "everything good" is).

**Not modelled:** the text that is printed for people to read, progress logging, timing, file I/O system calls,
and the commented-out code.  Files are byte lists by name (Model/Session.lean); opening one for
writing is taken to succeed.  The scripts are in Model/Scripts.lean, as lists of commands: of the shell only the
words of a command and the redirection of its standard input are modelled.
