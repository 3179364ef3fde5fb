import Verif.Model.Index
import Verif.Model.Decode
import Verif.Model.Uncompress
import Verif.Model.Contains
import Verif.Model.Select
import Verif.Model.NextGeq
import Verif.Model.Intersection
import Verif.Model.Union
/-!
# The command-line programs in src/

Arguments: `m` is memory in which the index file is mapped at address `a`; `toks` is standard input,
split into tokens: `some v` for a number (as the 32-bit value `scanf("%d")` stores), `none` for
anything else.  Results: the counters the program prints.  Timers and messages are not modelled.
-/
namespace Sliced

variable {σ α : Type}

/-- `for (i = 0; i != n; ++i) body(i)`; `n` iterations left, `i` is the counter -/
def forRange (body : Nat → σ → Res σ) : (n i : Nat) → σ → Res σ
  | 0, _, s => .ok s
  | n + 1, i, s => do
    let s ← body i s
    forRange body n (i + 1) s

/-- `for (auto const& x : v) body(x)` -/
def forEach (body : α → σ → Res σ) : List α → σ → Res σ
  | [], s => .ok s
  | x :: v, s => do
    let s ← body x s
    forEach body v s

/-- `for (uint32_t i = 0; i != n; ++i) body(i)` with a 64-bit bound `n`: a bound above `2^32 - 1` is
never reached (simplification: that counts as divergence, even if the body would have stopped). -/
def forRange32 (body : Nat → σ → Res σ) (n : Nat) (s : σ) : Res σ :=
  if n < 4294967296 then forRange body n 0 s else .error .diverge

/-! ## Reading queries -/

/-- At most `n` items are read by a loop with a 32-bit counter; with `n ≥ 2^32` the counter never
reaches `n`, and only the end of the input stops the loop. -/
def limit (n k : Nat) (toks : List α) : List α := if n < 4294967296 then toks.take (n * k) else toks

/-- select.cpp:21-26, next_geq.cpp:21-26.  On a token that is not a number `scanf` returns 0, which
is not `EOF`, and the uninitialised `q` is pushed: undefined behaviour. -/
def read_numbers : List (Option Nat) → Res (List Nat)
  | [] => .ok []
  | none :: _ => .error .ub
  | some v :: toks => do
    let vs ← read_numbers toks
    return v :: vs

/-- contains.cpp:48-54, intersect.cpp:51-57, union.cpp:51-57: pairs; a first component without a
second one is dropped. -/
def read_pairs : List (Option Nat) → Res (List (Nat × Nat))
  | [] => .ok []
  | none :: _ => .error .ub
  | [some _] => .ok []
  | some _ :: none :: _ => .error .ub
  | some i :: some j :: toks => do
    let qs ← read_pairs toks
    return (i, j) :: qs

/-! ## Programs without queries -/

/-- decode.cpp:11-26; returns the number of sequences and of integers -/
def tool_decode (dbg : Bool) (m : Mem) (a : Nat) : Res (Nat × Nat) := do
  let idx ← SIndex.mmap m a
  let (integers, _) ← forRange (fun i (s : Nat × List Nat) => do
      let sequence ← idx.get dbg m i
      let (decoded, out) ← sequence.decode dbg m s.2
      return (u64 (s.1 + decoded), out)) idx.size 0 (0, List.replicate idx.univ 0)
  return (idx.size, integers)

/-- uncompress.cpp:17-18 and test_uncompress.cpp: `num_chunks(universe) * constants::chunk_size / 64`,
a product of two `uint32_t` -/
def bitmap_words (univ : Nat) : Nat := u32 (num_chunks univ * chunk_size) / 64

/-- uncompress.cpp:11-31 -/
def tool_uncompress (dbg : Bool) (m : Mem) (a : Nat) : Res (Nat × Nat) := do
  let idx ← SIndex.mmap m a
  let (integers, _) ← forRange (fun i (s : Nat × List Nat) => do
      let sequence ← idx.get dbg m i
      let (decoded, out) ← sequence.uncompress dbg m s.2
      return (u64 (s.1 + decoded), out)) idx.size 0 (0, List.replicate (bitmap_words idx.univ) 0)
  return (idx.size, integers)

/-- cardinality.cpp:10-25; returns `total / runs` -/
def tool_cardinality (dbg : Bool) (m : Mem) (a : Nat) : Res Nat := do
  let idx ← SIndex.mmap m a
  let total ← forRange (fun _ total =>
      forRange (fun i total => do
        let sequence ← idx.get dbg m i
        let c ← sequence.cardinality m
        return u64 (total + c)) idx.size 0 total) 11 0 0
  return total / 11

/-! ## Programs with queries -/

/-- contains.cpp:11-26 and 34-57; returns `total` -/
def tool_contains (dbg : Bool) (m : Mem) (a num_queries : Nat) (toks : List (Option Nat)) :
    Res Nat := do
  let queries ← read_pairs (limit num_queries 2 toks)
  let idx ← SIndex.mmap m a
  forRange (fun _ total =>
    forEach (fun (q : Nat × Nat) total => do
      let sequence ← idx.get dbg m q.1
      let b ← sequence.contains dbg m q.2
      return u64 (total + (if b then 1 else 0))) queries total) 4 0 0

/-- select.cpp:11-47; returns `total` (the inner state is `q`, `value`, `total`) -/
def tool_select (dbg : Bool) (m : Mem) (a per_sequence : Nat) (toks : List (Option Nat)) :
    Res Nat := do
  let idx ← SIndex.mmap m a
  let queries ← read_numbers (limit (u64 (idx.size * per_sequence)) 1 toks)
  forRange (fun _ total => do
    let (_, _, total) ← forRange32 (fun i (s : Nat × Nat × Nat) => do
        let sequence ← idx.get dbg m i
        forRange32 (fun _ (s : Nat × Nat × Nat) => do
          let r ← rdv queries s.1
          let (_, value) ← sequence.select dbg m r s.2.1
          return (s.1 + 1, value, u64 (s.2.2 + value))) per_sequence s) idx.size (0, 0, total)
    return total) 4 0 0

/-- next_geq.cpp:11-45; returns `total` -/
def tool_next_geq (dbg : Bool) (m : Mem) (a per_sequence : Nat) (toks : List (Option Nat)) :
    Res Nat := do
  let idx ← SIndex.mmap m a
  let queries ← read_numbers (limit (u64 (idx.size * per_sequence)) 1 toks)
  forRange (fun _ total => do
    let (_, total) ← forRange32 (fun i (s : Nat × Nat) => do
        let sequence ← idx.get dbg m i
        forRange32 (fun _ (s : Nat × Nat) => do
          let v ← rdv queries s.1
          let x ← sequence.next_geq dbg m v
          return (s.1 + 1, u64 (s.2 + x))) per_sequence s) idx.size (0, total)
    return total) 4 0 0

/-- intersect.cpp:11-29 and 37-60; returns `total` (state: `total`, the static scratch bitmap, `out`) -/
def tool_intersect (dbg : Bool) (tab : Nat → List Nat) (m : Mem) (a num_queries : Nat)
    (toks : List (Option Nat)) (scratch : List Nat) : Res Nat := do
  let queries ← read_pairs (limit num_queries 2 toks)
  let idx ← SIndex.mmap m a
  let (total, _, _) ← forRange (fun _ s =>
    forEach (fun (q : Nat × Nat) (s : Nat × List Nat × List Nat) => do
      let l ← idx.get dbg m q.1
      let r ← idx.get dbg m q.2
      let (n, x, out) ← pairwise_intersection dbg tab m l r s.2.1 s.2.2 0
      return (u64 (s.1 + n), x, out)) queries s) 11 0 (0, scratch, List.replicate idx.univ 0)
  return total

/-- union.cpp:11-29 and 37-60; returns `total` -/
def tool_union (dbg : Bool) (m : Mem) (a num_queries : Nat) (toks : List (Option Nat))
    (scratch : UScratch) : Res Nat := do
  let queries ← read_pairs (limit num_queries 2 toks)
  let idx ← SIndex.mmap m a
  let (total, _, _) ← forRange (fun _ s =>
    forEach (fun (q : Nat × Nat) (s : Nat × UScratch × List Nat) => do
      let l ← idx.get dbg m q.1
      let r ← idx.get dbg m q.2
      let (n, x, out) ← pairwise_union dbg m l r s.2.1 s.2.2 0
      return (u64 (s.1 + n), x, out)) queries s) 11 0 (0, scratch, List.replicate idx.univ 0)
  return total

/-! ## Printing the statistics -/

/-- conversion of the `double` quotient of two counters to `uint64_t` (util.hpp:212-213).  With a
zero denominator the quotient is a NaN or an infinity, and the conversion is undefined.
Simplification: the quotient is taken exactly, which is what `double` gives for counters up to
2^51 (`C63_average`); a quotient is never above the numerator, which is a 64-bit counter. -/
def ratio64 (num den : Nat) : Res Nat := if den = 0 then .error .ub else .ok (num / den)

/-- util.hpp:90-94 `elias_fano_bitsize`, with `ceil(log2(u / n))` for `n ≠ 0` as a parameter.  With
`n = 0` the value is `0 * (inf + 2)`, a NaN, and its conversion is undefined. -/
def elias_fano_bitsize (log : Nat → Nat → Nat) (n u : Nat) : Res Nat :=
  if n = 0 then (if u > n then .error .ub else .ok 0)
  else .ok (n * ((if u > n then log u n else 0) + 2))

/-- util.hpp:205-241, the last loop of `statistics::print`; the loops before it only convert integers
to `double` and divide, which is always defined.  Returns the pairs of integers that are printed. -/
def Stats.print (log : Nat → Nat → Nat) (st : Stats) : Res (List (Nat × Nat)) :=
  forRange (fun i (s : List (Nat × Nat)) => do
    let n ← rdv st.num_integers i
    let d ← rdv st.num_blocks_in_chunks i
    let avg ← ratio64 n d
    let ef ← elias_fano_bitsize log avg chunk_size
    return s ++ [(avg, ef)]) 256 1 []

/-! ## The example program -/

/-- example.cpp:73-86, the checking loop: returns the exit code -/
def example_check (dbg : Bool) (m : Mem) (ss : SSeq) (input out : List Nat) :
    (n i value : Nat) → Res Nat
  | 0, _, _ => .ok 0
  | n + 1, i, value => do
    let x ← rdv input i
    let y ← rdv out i
    if x ≠ y then return 1
    else do
      let (_, value) ← ss.select dbg m i value
      if value ≠ y then return 1
      else example_check dbg m ss input out n (i + 1) value

/-- example.cpp:61-88: everything after the sequence is in memory at address `data`; returns the
exit code. -/
def example_main (dbg : Bool) (m : Mem) (data : Nat) (input : List Nat) : Res Nat := do
  let ss ← SSeq.ofAddr m data
  let size ← ss.size m
  let (_, out) ← ss.decode dbg m (List.replicate size 0)
  example_check dbg m ss input out size 0 0

/-- example.cpp:49-55 and builder.hpp:294-297 `visit`: the file is the vector of bytes, preceded by
its length as a 64-bit word. -/
def save_sequence (bytes : List UInt8) : List UInt8 := le64 bytes.length ++ bytes

end Sliced
