import Verif.Model.Tools
import Verif.Model.Generators
import Verif.Model.Main
/-!
# Text: the numbers that the programs print and read

The first models of the programs take standard input as a list of tokens and the numbers among the
arguments as numbers.  Here both are characters, read by `scanf("%d")`, `std::cin >>`, `std::atoi`
and `std::stoull`, and printed by `operator<<`, all in the "C" locale.
-/
namespace Sliced

/-! ## Characters -/

/-- `isspace` -/
def isSpace (c : Char) : Bool :=
  c == ' ' || c == '\t' || c == '\n' || c == '\x0b' || c == '\x0c' || c == '\r'

/-- the value of a decimal digit -/
def digitVal (c : Char) : Option Nat :=
  if 48 ≤ c.toNat ∧ c.toNat ≤ 57 then some (c.toNat - 48) else none

/-- the number that the digits at the front give, with `n` for the digits before them; and the rest -/
def takeDigits : (n : Nat) → List Char → Nat × List Char
  | n, [] => (n, [])
  | n, c :: cs =>
    match digitVal c with
    | some d => takeDigits (10 * n + d) cs
    | none => (n, c :: cs)

/-- what an attempt to read a number finds: the end of the input, something else, or a number (its
sign and magnitude); and what is left -/
inductive Scan
  | eof
  | fail (rest : List Char)
  | num (neg : Bool) (n : Nat) (rest : List Char)
  deriving DecidableEq

/-- digits behind an optional sign -/
def scanDigits (neg : Bool) : List Char → Scan
  | [] => .fail []
  | c :: cs =>
    match digitVal c with
    | some d => let r := takeDigits d cs; .num neg r.1 r.2
    | none => .fail (c :: cs)

/-- the form that `%d`, `strtol` and `operator>>` accept: spaces, a sign, digits, as many as there
are.  A sign that is not followed by a digit is consumed by `scanf`. -/
def scan (cs : List Char) : Scan :=
  match cs.dropWhile isSpace with
  | [] => .eof
  | c :: cs =>
    if c = '-' then scanDigits true cs
    else if c = '+' then scanDigits false cs
    else scanDigits false (c :: cs)

/-- `std::cout << n` for an unsigned integer -/
def showNat (n : Nat) : List Char :=
  if n < 10 then [Char.ofNat (48 + n)] else showNat (n / 10) ++ [Char.ofNat (48 + n % 10)]

/-! ## Conversions to 32 bits -/

/-- `scanf("%d")` into a `uint32_t`, and `std::atoi` converted to one, by the C standard: a value that an
`int` cannot represent is undefined behaviour -/
def conv_iso (neg : Bool) (n : Nat) : Res Nat :=
  if neg then (if n ≤ 2147483648 then .ok (u32 (4294967296 - n)) else .error .ub)
  else (if n < 2147483648 then .ok n else .error .ub)

/-- the same in glibc on a 64-bit system: both call `strtol`, which stops at the least and the largest
64-bit value, and keep the lower half -/
def conv_glibc (neg : Bool) (n : Nat) : Res Nat :=
  if neg then .ok (u32 (18446744073709551616 - min n 9223372036854775808))
  else .ok (u32 (min n 9223372036854775807))

/-- `std::atoi`; text that is no number gives 0 -/
def atoi (conv : Bool → Nat → Res Nat) (cs : List Char) : Res Nat :=
  match scan cs with
  | .num neg n _ => conv neg n
  | _ => .ok 0

/-- `std::stoull`: throws if there is no number or if it does not fit; a minus sign negates modulo
2^64 -/
def stoull (cs : List Char) : Res Nat :=
  match scan cs with
  | .num neg n _ =>
    if n < 18446744073709551616 then .ok (if neg then u64 (18446744073709551616 - n) else n)
    else .error .exc
  | _ => .error .exc

/-! ## Reading queries -/

/-- number of iterations of `for (uint32_t i = 0; i != n; ++i)` with a 64-bit `n`, for a loop that ends
at the end of the input and otherwise consumes at least one character per iteration -/
def rounds (n : Nat) (cs : List Char) : Nat := if n < 4294967296 then n else cs.length + 1

/-- select.cpp:21-26, next_geq.cpp:21-26.  If `scanf` returns 0 the uninitialised `q` is pushed. -/
def scan_numbers (conv : Bool → Nat → Res Nat) : (k : Nat) → List Char → Res (List Nat)
  | 0, _ => .ok []
  | k + 1, cs =>
    match scan cs with
    | .eof => .ok []
    | .fail _ => .error .ub
    | .num neg n rest => do
      let q ← conv neg n
      let qs ← scan_numbers conv k rest
      return q :: qs

/-- contains.cpp:48-54, intersect.cpp:51-57, union.cpp:51-57 -/
def scan_pairs (conv : Bool → Nat → Res Nat) : (k : Nat) → List Char → Res (List (Nat × Nat))
  | 0, _ => .ok []
  | k + 1, cs =>
    match scan cs with
    | .eof => .ok []
    | .fail rest =>
      -- `q.i` is not set; `q` is used unless the second call finds the end
      (match scan rest with
       | .eof => .ok []
       | _ => .error .ub)
    | .num neg n rest => do
      let i ← conv neg n
      match scan rest with
      | .eof => return []
      | .fail _ => .error .ub
      | .num neg n rest => do
        let j ← conv neg n
        let qs ← scan_pairs conv k rest
        return (i, j) :: qs

/-! ## The programs of src/ with their arguments and standard input

The bodies are those of Model/Tools.lean; `read` is the way the queries are read. -/

/-- contains.cpp:11-26 -/
def perf_contains (dbg : Bool) (m : Mem) (a : Nat) (queries : List (Nat × Nat)) : Res Nat := do
  let idx ← SIndex.mmap m a
  forRange (fun _ total =>
    forEach (fun (q : Nat × Nat) total => do
      let sequence ← idx.get dbg m q.1
      let b ← sequence.contains dbg m q.2
      return u64 (total + (if b then 1 else 0))) queries total) 4 0 0

/-- select.cpp:11-47 -/
def perf_select (dbg : Bool) (m : Mem) (a per_sequence : Nat) (read : Nat → Res (List Nat)) :
    Res Nat := do
  let idx ← SIndex.mmap m a
  let queries ← read (u64 (idx.size * per_sequence))
  forRange (fun _ total => do
    let (_, _, total) ← forRange32 (fun i (s : Nat × Nat × Nat) => do
        let sequence ← idx.get dbg m i
        forRange32 (fun _ (s : Nat × Nat × Nat) => do
          let r ← rdv queries s.1
          let (_, value) ← sequence.select dbg m r s.2.1
          return (s.1 + 1, value, u64 (s.2.2 + value))) per_sequence s) idx.size (0, 0, total)
    return total) 4 0 0

/-- next_geq.cpp:11-45 -/
def perf_next_geq (dbg : Bool) (m : Mem) (a per_sequence : Nat) (read : Nat → Res (List Nat)) :
    Res Nat := do
  let idx ← SIndex.mmap m a
  let queries ← read (u64 (idx.size * per_sequence))
  forRange (fun _ total => do
    let (_, total) ← forRange32 (fun i (s : Nat × Nat) => do
        let sequence ← idx.get dbg m i
        forRange32 (fun _ (s : Nat × Nat) => do
          let v ← rdv queries s.1
          let x ← sequence.next_geq dbg m v
          return (s.1 + 1, u64 (s.2 + x))) per_sequence s) idx.size (0, total)
    return total) 4 0 0

/-- intersect.cpp:11-29 -/
def perf_intersection (dbg : Bool) (tab : Nat → List Nat) (m : Mem) (a : Nat)
    (queries : List (Nat × Nat)) (scratch : List Nat) : Res Nat := do
  let idx ← SIndex.mmap m a
  let (total, _, _) ← forRange (fun _ s =>
    forEach (fun (q : Nat × Nat) (s : Nat × List Nat × List Nat) => do
      let l ← idx.get dbg m q.1
      let r ← idx.get dbg m q.2
      let (n, x, out) ← pairwise_intersection dbg tab m l r s.2.1 s.2.2 0
      return (u64 (s.1 + n), x, out)) queries s) 11 0 (0, scratch, List.replicate idx.univ 0)
  return total

/-- union.cpp:11-29 -/
def perf_union (dbg : Bool) (m : Mem) (a : Nat) (queries : List (Nat × Nat)) (scratch : UScratch) :
    Res Nat := do
  let idx ← SIndex.mmap m a
  let (total, _, _) ← forRange (fun _ s =>
    forEach (fun (q : Nat × Nat) (s : Nat × UScratch × List Nat) => do
      let l ← idx.get dbg m q.1
      let r ← idx.get dbg m q.2
      let (n, x, out) ← pairwise_union dbg m l r s.2.1 s.2.2 0
      return (u64 (s.1 + n), x, out)) queries s) 11 0 (0, scratch, List.replicate idx.univ 0)
  return total

/-- `std::vector<T>::reserve(n)` throws if `n` objects of `size` bytes are more than 2^63 - 1 bytes -/
def reserve (size n : Nat) : Res Unit := if n * size < 9223372036854775808 then .ok () else .error .exc

/-- What a program does: it prints the usage and returns 1, or prints a total and returns 0. -/
inductive Exit
  | usage
  | total (n : Nat)
  deriving DecidableEq

/-- contains.cpp:34-60, intersect.cpp:37-63, union.cpp:37-63.  `perf` is the body, with the file named by
the first argument. -/
def pairs_main (conv : Bool → Nat → Res Nat) (perf : String → List (Nat × Nat) → Res Nat)
    (argv : List String) (input : List Char) : Res Exit :=
  match argv with
  | _ :: file :: num :: _ => do
    let num_queries ← stoull num.toList
    reserve 8 num_queries
    let queries ← scan_pairs conv (rounds num_queries input) input
    let total ← perf file queries
    return .total total
  | _ => .ok .usage

/-- select.cpp:55-69, next_geq.cpp:53-67 -/
def numbers_main (conv : Bool → Nat → Res Nat)
    (perf : String → Nat → (Nat → Res (List Nat)) → Res Nat) (argv : List String)
    (input : List Char) : Res Exit :=
  match argv with
  | _ :: file :: num :: _ => do
    let per_sequence ← stoull num.toList
    let total ← perf file per_sequence (fun total_queries => do
      reserve 4 total_queries
      scan_numbers conv (rounds total_queries input) input)
    return .total total
  | _ => .ok .usage

/-! ## What the generators print -/

/-- gen_random_select_queries.cpp:28, gen_random_next_geq_queries.cpp:30 -/
def lines (qs : List Nat) : List Char := qs.flatMap (fun q => showNat q ++ ['\n'])

/-- gen_random_pairwise_queries.cpp:8 -/
def pairLines (qs : List (Nat × Nat)) : List Char :=
  qs.flatMap (fun q => showNat q.1 ++ ['\t'] ++ showNat q.2 ++ ['\n'])

/-- gen_random_pairwise_queries.cpp:5-21; `none`: only the usage is printed -/
def gen_pairwise_main (conv : Bool → Nat → Res Nat) (rng : Nat → Nat → Nat → Nat)
    (argv : List String) : Res (Option (List Char)) :=
  match argv with
  | _ :: num :: seqs :: _ => do
    let num_queries ← atoi conv num.toList
    let num_sequences ← atoi conv seqs.toList
    return some (pairLines (gen_pairwise_queries num_queries num_sequences rng))
  | _ => .ok none

/-- gen_random_select_queries.cpp:11-41 and gen_random_next_geq_queries.cpp:12-43, with `gen` for the
queries of the index in a file -/
def gen_numbers_main (conv : Bool → Nat → Res Nat) (gen : String → Nat → Res (List Nat))
    (argv : List String) : Res (Option (List Char)) :=
  match argv with
  | _ :: file :: num :: _ => do
    let per_sequence ← atoi conv num.toList
    let queries ← gen file per_sequence
    return some (lines queries)
  | _ => .ok none

/-! ## Streams -/

/-- One `std::cin >> x` into a `uint32_t` that holds `old`, as `extract` but on characters; the state is
what is left of the input and whether the stream has failed.  `minus n` is the number that `-n` stands
for (the C++ standard and the libraries differ there). -/
def extractText (minus : Nat → Nat) (old : Option Nat) : List Char × Bool →
    Option Nat × (List Char × Bool)
  | (cs, true) => (old, (cs, true))
  | (cs, false) =>
    match scan cs with
    | .eof => (old, ([], true))
    | .fail rest => (some 0, (rest, true))
    | .num neg n rest =>
      let v := if neg then minus n else n
      if v < 4294967296 then (some v, (rest, false)) else (some 4294967295, (rest, true))

/-- example.cpp:33-36 -/
def exampleFillText (minus : Nat → Nat) : (n : Nat) → (x : Option Nat) → List Char × Bool →
    (input : List Nat) → Res (List Nat)
  | 0, _, _, input => .ok input
  | n + 1, x, cs, input =>
    match extractText minus x cs with
    | (some y, cs) => exampleFillText minus n (some y) cs (input ++ [y])
    | (none, _) => .error .ub

/-- example.cpp:28-37 -/
def exampleInputText (minus : Nat → Nat) (cs : List Char) : Res (List Nat) :=
  match extractText minus none (cs, false) with
  | (some n, cs) => exampleFillText minus n none cs []
  | (none, _) => .error .ub

/-- the lines that `std::getline` delivers one by one -/
def splitLines : List Char → List (List Char)
  | [] => []
  | c :: cs =>
    if c = '\n' then [] :: splitLines cs
    else
      match splitLines cs with
      | [] => [[c]]
      | l :: ls => (c :: l) :: ls

/-- test_common.hpp:17-19 `while (iline >> index) query.push_back(index)` -/
def lineNumbers (minus : Nat → Nat) : (fuel : Nat) → List Char → List Nat
  | 0, _ => []
  | f + 1, cs =>
    match extractText minus none (cs, false) with
    | (some v, (rest, false)) => v :: lineNumbers minus f rest
    | _ => []

/-- test_common.hpp:12-23, for one line; each number takes a character at least -/
def readQueryText (minus : Nat → Nat) (sort : List Nat → List Nat) (line : List Char) : List Nat :=
  unique (sort (lineNumbers minus (line.length + 1) line))

end Sliced
