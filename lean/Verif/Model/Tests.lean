import Verif.Model.Tools
import Verif.Model.Generators
import Verif.Model.Enumerator
import Verif.Model.NextGeqEnumerator
import Verif.Model.IntersectionMany
import Verif.Model.UnionMany
/-!
# The test programs in test/

`m`, `a`: the index file, mapped at address `a`; `data`: the collection file, as 32-bit words.  The
result is what the program reports: the number of sequences or queries, and whether the last line is
"everything good".  Messages are not modelled, nor is the parsing of the command line.
-/
namespace Sliced

variable {σ : Type}

/-- The loop over the collection that most of the programs share (test_contains.cpp:23-53 and the
same lines of the others): `body k n univ p` is the part inside of the `if`, where `k` is the number
of the sequence and the list is `data[p], …, data[p + n - 1]`.  The state is `good` and what else
the program keeps.  Each list takes at least one word. -/
def test_loop (params : Params) (data : List Nat)
    (body : (k n univ p : Nat) → Bool × σ → Res (Bool × σ)) :
    (fuel i k : Nat) → Bool × σ → Res (Nat × Bool)
  | 0, _, _, _ => .error .diverge
  | f + 1, i, k, s =>
    if i < data.length then do
      let n ← rdv data i
      let univ ← rdv data (i + n)
      if pass params n univ then do
        let s ← body k n univ (i + 1) s
        test_loop params data body f (i + u32 (n + 1)) (k + 1) s
      else test_loop params data body f (i + u32 (n + 1)) k s
    else .ok (k, s.1)

/-- what precedes the loop: `assert(data[0] == 1)` (test_contains.cpp:17-21) -/
def test_collection (dbg : Bool) (params : Params) (data : List Nat)
    (body : (k n univ p : Nat) → Bool × σ → Res (Bool × σ)) (s : σ) : Res (Nat × Bool) := do
  let d0 ← rdv data 0
  cassert dbg (d0 == 1)
  test_loop params data body (data.length + 1) 2 0 (true, s)

/-- the comparison with the decoded list, test_decode.cpp:42-50, test_uncompress.cpp:70-78 -/
def compare_lists (data out : List Nat) (p n : Nat) (good : Bool) : Res Bool :=
  forRange (fun j good => do
    let expected ← rdv data (p + j)
    let got ← rdv out j
    return good && (expected == got)) n 0 good

/-- test_contains.cpp:27-45 -/
def check_contains (dbg : Bool) (m : Mem) (idx : SIndex) (data : List Nat) (k n _univ p : Nat)
    (s : Bool × Unit) : Res (Bool × Unit) := do
  let sequence ← idx.get dbg m k
  let c ← sequence.cardinality m
  let good ← forRange (fun j good => do
    let value ← rdv data (p + j)
    let found ← sequence.contains dbg m value
    return good && found) n 0 (s.1 && (c == n))
  return (good, ())

/-- test_contains.cpp:12-57 -/
def test_contains (dbg : Bool) (m : Mem) (a : Nat) (params : Params) (data : List Nat) :
    Res (Nat × Bool) := do
  let idx ← SIndex.mmap m a
  test_collection dbg params data (check_contains dbg m idx data) ()

/-- test_decode.cpp:28-52 -/
def check_decode (dbg : Bool) (m : Mem) (idx : SIndex) (data : List Nat) (k n _univ p : Nat)
    (s : Bool × List Nat) : Res (Bool × List Nat) := do
  let sequence ← idx.get dbg m k
  let (decoded, out) ← sequence.decode dbg m s.2
  let c ← sequence.cardinality m
  let good ← compare_lists data out p n (s.1 && (c == n) && (decoded == n))
  return (good, out)

/-- test_decode.cpp:12-64 -/
def test_decode (dbg : Bool) (m : Mem) (a : Nat) (params : Params) (data : List Nat) :
    Res (Nat × Bool) := do
  let idx ← SIndex.mmap m a
  test_collection dbg params data (check_decode dbg m idx data) (List.replicate idx.univ 0)

/-- test_select.cpp:27-53; the inner state is `good` and `value` -/
def check_select (dbg : Bool) (m : Mem) (idx : SIndex) (data : List Nat) (k n _univ p : Nat)
    (s : Bool × Unit) : Res (Bool × Unit) := do
  let sequence ← idx.get dbg m k
  let c ← sequence.cardinality m
  let (good, _) ← forRange (fun j (s : Bool × Nat) => do
    let expected ← rdv data (p + j)
    let (valid, value) ← sequence.select dbg m (u32 j) s.2
    return (s.1 && valid && (expected == value), value)) n 0 (s.1 && (c == n), 0)
  return (good, ())

/-- test_select.cpp:12-65 -/
def test_select (dbg : Bool) (m : Mem) (a : Nat) (params : Params) (data : List Nat) :
    Res (Nat × Bool) := do
  let idx ← SIndex.mmap m a
  test_collection dbg params data (check_select dbg m idx data) ()

/-- `*std::lower_bound(list, list + n, v)` for a list that starts at word `p` of the file: the first
element that is not below `v`.  Behind the last element of the list is what follows in the file. -/
def lower_bound (data : List Nat) (p n v : Nat) : Res Nat :=
  rdv data (p + (((data.drop p).take n).takeWhile (fun x => decide (x < v))).length)

/-- `for (size_t v = first; v != last; v += 10000) body(v)` (test_next_geq.cpp:56-58,
test_next_geq_enumerator.cpp:58-60).  `fuel` bounds the number of iterations. -/
def jump_loop (body : Nat → σ → Res σ) (last : Nat) : (fuel v : Nat) → σ → Res σ
  | 0, _, _ => .error .diverge
  | f + 1, v, s =>
    if v = last then .ok s
    else do
      let s ← body v s
      jump_loop body last f (u64 (v + 10000)) s

/-- test_next_geq.cpp:39-65 and test_next_geq_enumerator.cpp:41-67: both loops, with `next_geq` as a
parameter that carries its own state.  The bounds are computed in 32 bits; the loop variable has 64
and is converted when it is passed to `next_geq`. -/
def check_next_geq (dbg : Bool) (next_geq : σ → Nat → Res (σ × Nat)) (data : List Nat) (fuel : Nat)
    (n univ p : Nat) (s : Bool × σ) : Res (Bool × σ) := do
  let s ← forRange (fun v (s : Bool × σ) => do
    let expected ← lower_bound data p n v
    let (e, x) ← next_geq s.2 (u32 v)
    cassert dbg (x ≥ v)
    return (s.1 && (x == expected), e)) (u32 (univ + 1)) 0 s
  jump_loop (fun v (s : Bool × σ) => do
    let (e, x) ← next_geq s.2 (u32 v)
    return (s.1 && (x == 4294967295), e)) (u32 (univ + 1000001)) fuel (u32 (univ + 1)) s

/-- test_next_geq.cpp:27-65 -/
def check_sequence_next_geq (dbg : Bool) (m : Mem) (idx : SIndex) (data : List Nat) (fuel : Nat)
    (k n univ p : Nat) (s : Bool × Unit) : Res (Bool × Unit) := do
  let sequence ← idx.get dbg m k
  let c ← sequence.cardinality m
  check_next_geq dbg (fun _ v => do
    let x ← sequence.next_geq dbg m v
    return ((), x)) data fuel n univ p (s.1 && (c == n), ())

/-- test_next_geq.cpp:12-74 -/
def test_next_geq (dbg : Bool) (m : Mem) (a : Nat) (params : Params) (data : List Nat) (fuel : Nat) :
    Res (Nat × Bool) := do
  let idx ← SIndex.mmap m a
  test_collection dbg params data (check_sequence_next_geq dbg m idx data fuel) ()

/-- test_next_geq_enumerator.cpp:28-67 -/
def check_enumerator_next_geq (dbg : Bool) (m : Mem) (idx : SIndex) (data : List Nat) (fuel : Nat)
    (k n univ p : Nat) (s : Bool × Unit) : Res (Bool × Unit) := do
  let sequence ← idx.get dbg m k
  let c ← sequence.cardinality m
  let e ← GeqEnum.new m sequence
  let (good, _) ← check_next_geq dbg (fun e v => e.next_geq dbg m v) data fuel n univ p
    (s.1 && (c == n), e)
  return (good, ())

/-- test_next_geq_enumerator.cpp:12-76 -/
def test_next_geq_enumerator (dbg : Bool) (m : Mem) (a : Nat) (params : Params) (data : List Nat)
    (fuel : Nat) : Res (Nat × Bool) := do
  let idx ← SIndex.mmap m a
  test_collection dbg params data (check_enumerator_next_geq dbg m idx data fuel) ()

/-- test_enumerator.cpp:29-42; the state is `good` and the buffer of the enumerator, which is kept
when `init` is called again -/
def check_enumerator (dbg : Bool) (m : Mem) (idx : SIndex) (data : List Nat) (k n _univ p : Nat)
    (s : Bool × List Nat) : Res (Bool × List Nat) := do
  let sequence ← idx.get dbg m k
  let e ← Enum.init dbg m s.2 sequence (u32 idx.univ)
  let (good, e) ← forRange (fun j (s : Bool × Enum) => do
    let expected ← rdv data (p + j)
    let got ← s.2.value
    let e ← s.2.next dbg m
    return (s.1 && (expected == got), e)) n 0 (s.1, e)
  return (good, e.buf)

/-- test_enumerator.cpp:12-53 -/
def test_enumerator (dbg : Bool) (m : Mem) (a : Nat) (params : Params) (data : List Nat) :
    Res (Nat × Bool) := do
  let idx ← SIndex.mmap m a
  test_collection dbg params data (check_enumerator dbg m idx data) (List.replicate chunk_size 0)

/-- test_uncompress.cpp:12-28, the loop: `n` words left, `i` the next one, `size` elements written -/
def decode_and_reset_loop : (n i base : Nat) → (bitmap out : List Nat) → (size : Nat) →
    Res (Nat × List Nat × List Nat)
  | 0, _, _, bitmap, out, size => .ok (size, bitmap, out)
  | n + 1, i, base, bitmap, out, size => do
    let w ← rdv bitmap i
    let (size, out) ← scan_word 65 w base out size
    let bitmap ← wr bitmap i 0
    decode_and_reset_loop n (i + 1) (u32 (base + 64)) bitmap out size

/-- test_uncompress.cpp:12-28 `decode_bitmap_and_reset` -/
def decode_bitmap_and_reset (bitmap : List Nat) (words : Nat) (out : List Nat) :
    Res (Nat × List Nat × List Nat) := decode_and_reset_loop words 0 0 bitmap out 0

/-- test_uncompress.cpp:53-79; the state is `good`, the bitmap and `out` -/
def check_uncompress (dbg : Bool) (m : Mem) (idx : SIndex) (data : List Nat) (k n _univ p : Nat)
    (s : Bool × List Nat × List Nat) : Res (Bool × List Nat × List Nat) := do
  let sequence ← idx.get dbg m k
  let (decoded, bitmap) ← sequence.uncompress dbg m s.2.1
  let (d, bitmap, out) ← decode_bitmap_and_reset bitmap (bitmap_words idx.univ) s.2.2
  let good ← compare_lists data out p n (s.1 && (decoded == d) && (decoded == n))
  return (good, bitmap, out)

/-- test_uncompress.cpp:30-88 -/
def test_uncompress (dbg : Bool) (m : Mem) (a : Nat) (params : Params) (data : List Nat) :
    Res (Nat × Bool) := do
  let idx ← SIndex.mmap m a
  test_collection dbg params data (check_uncompress dbg m idx data)
    (List.replicate (bitmap_words idx.univ) 0, List.replicate idx.univ 0)

/-! ## Tests with queries -/

/-- `std::set_intersection`, and `pairwise_intersection` of test_intersect_many.cpp:13-30 -/
def merge_common : List Nat → List Nat → List Nat
  | [], _ => []
  | _ :: _, [] => []
  | x :: l, y :: r =>
    if x < y then merge_common l (y :: r)
    else if y < x then merge_common (x :: l) r
    else x :: merge_common l r
termination_by l r => l.length + r.length

/-- `std::set_union`, and `pairwise_union` of test_union_many.cpp:16-43 -/
def merge_all : List Nat → List Nat → List Nat
  | [], r => r
  | x :: l, [] => x :: l
  | x :: l, y :: r =>
    if x < y then x :: merge_all l (y :: r)
    else if y < x then y :: merge_all (x :: l) r
    else x :: merge_all l r
termination_by l r => l.length + r.length

/-- test_intersect.cpp:44-50 and the same lines of the others -/
def compare_results (expected out : List Nat) (size : Nat) (good : Bool) : Res Bool :=
  forRange (fun i good => do
    let x ← rdv expected i
    let y ← rdv out i
    return good && (x == y)) size 0 good

/-- the four vectors of test_intersect.cpp:17-20 and test_union.cpp:15-18 -/
structure Bufs where
  out : List Nat
  i : List Nat
  j : List Nat
  expected : List Nat

def Bufs.init (univ : Nat) : Bufs :=
  ⟨List.replicate univ 0, List.replicate univ 0, List.replicate univ 0, List.replicate univ 0⟩

/-- test_intersect.cpp:23-51 and test_union.cpp:21-43: one query; `merge` is the algorithm of the
standard library, `op` the one under test, `τ` its static buffers. -/
def check_pair {τ : Type} (dbg : Bool) (m : Mem) (idx : SIndex) (merge : List Nat → List Nat → List Nat)
    (op : SSeq → SSeq → τ → List Nat → Res (Nat × τ × List Nat)) (q : Nat × Nat)
    (s : Bool × Bufs × τ) : Res (Bool × Bufs × τ) := do
  let l ← idx.get dbg m q.1
  let (i_size, i) ← l.decode dbg m s.2.1.i
  let r ← idx.get dbg m q.2
  let (j_size, j) ← r.decode dbg m s.2.1.j
  let e := merge (i.take i_size) (j.take j_size)
  let expected ← wrs s.2.1.expected 0 e
  let (size, t, out) ← op l r s.2.2 s.2.1.out
  let good ← compare_results expected out size (s.1 && (e.length == size))
  return (good, ⟨out, i, j, expected⟩, t)

/-- test_intersect.cpp:12-54 and 64-78: the two sequences go to the many-way `intersection` -/
def test_intersect (dbg : Bool) (sort : (SSeq → Nat) → List SSeq → List SSeq) (m : Mem)
    (a num_queries : Nat) (toks : List (Option Nat)) (scratch : IScratch) : Res (Nat × Bool) := do
  let queries ← read_pairs (limit num_queries 2 toks)
  let idx ← SIndex.mmap m a
  let (good, _) ← forEach (check_pair dbg m idx merge_common (fun l r x out => do
    let (n, _, x, out) ← intersection dbg sort m [l, r] x out
    return (n, x, out))) queries (true, Bufs.init idx.univ, scratch)
  return (queries.length, good)

/-- test_union.cpp:10-46 and 56-70 -/
def test_union (dbg : Bool) (m : Mem) (a num_queries : Nat) (toks : List (Option Nat))
    (scratch : UScratch) : Res (Nat × Bool) := do
  let queries ← read_pairs (limit num_queries 2 toks)
  let idx ← SIndex.mmap m a
  let (good, _) ← forEach (check_pair dbg m idx merge_all
    (fun l r x out => pairwise_union dbg m l r x out 0)) queries (true, Bufs.init idx.univ, scratch)
  return (queries.length, good)

/-- test_common.hpp:12-23 `read_query_and_remove_duplicates` for one line, given as its tokens: the
numbers before the first token that is not one, sorted, without duplicates -/
def read_query (sort : List Nat → List Nat) (line : List (Option Nat)) : List Nat :=
  unique (sort ((line.takeWhile Option.isSome).filterMap id))

/-- test_intersect_many.cpp:107-115, test_union_many.cpp:120-128 -/
def read_queries (dbg : Bool) (sort : List Nat → List Nat) : List (List (Option Nat)) →
    Res (List (List Nat))
  | [] => .ok []
  | line :: lines => do
    cassert dbg (!(read_query sort line).isEmpty)
    let qs ← read_queries dbg sort lines
    return read_query sort line :: qs

/-- test_intersect_many.cpp:35-47, test_union_many.cpp:48-60: the sequences, listed with an
enumerator.  Listing more elements than `cardinality()` would count as divergence. -/
def list_sequence (dbg : Bool) (m : Mem) (idx : SIndex) (q : Nat) : Res (List Nat) := do
  let sequence ← idx.get dbg m q
  let e ← Enum.init dbg m (List.replicate chunk_size 0) sequence (u32 idx.univ)
  let c ← sequence.cardinality m
  let l ← Enum.collect dbg m (c + 1) e
  cassert dbg (l.length == c)
  cassert dbg (decide (l.Pairwise (· ≤ ·)))
  return l

/-- test_intersect_many.cpp:67-90, test_union_many.cpp:80-103: one query of two or more sequences;
`fold` computes the expected result from the listed sequences. -/
def check_many {τ : Type} (dbg : Bool) (m : Mem) (idx : SIndex) (fold : List (List Nat) → List Nat)
    (op : List SSeq → τ → List Nat → Res (Nat × τ × List Nat)) (q : List Nat)
    (s : (Nat × Bool) × List Nat × τ) : Res ((Nat × Bool) × List Nat × τ) :=
  if q.length < 2 then .ok s
  else do
    let lists ← q.mapM (list_sequence dbg m idx)
    let expected := fold lists
    let sequences ← q.mapM (idx.get dbg m)
    let (size, t, out) ← op sequences s.2.2 s.2.1
    let good ← compare_results expected out size (s.1.2 && (expected.length == size))
    return ((s.1.1 + 1, good), out, t)

/-- test_intersect_many.cpp:49-52 -/
def fold_common : List (List Nat) → List Nat
  | x :: y :: ls => ls.foldl merge_common (merge_common x y)
  | _ => []

/-- test_intersect_many.cpp:57-118 -/
def test_intersect_many (dbg : Bool) (sort : (SSeq → Nat) → List SSeq → List SSeq)
    (nsort : List Nat → List Nat) (m : Mem) (a num_queries : Nat)
    (lines : List (List (Option Nat))) (scratch : IScratch) : Res (Nat × Bool) := do
  let queries ← read_queries dbg nsort (lines.take num_queries)
  let idx ← SIndex.mmap m a
  let (r, _) ← forEach (check_many dbg m idx fold_common (fun ss x out => do
    let (n, _, x, out) ← intersection dbg sort m ss x out
    return (n, x, out))) queries ((0, true), List.replicate idx.univ 0, scratch)
  return r

/-- test_union_many.cpp:62-131 -/
def test_union_many (dbg : Bool) (nsort : List Nat → List Nat) (m : Mem) (a num_queries : Nat)
    (lines : List (List (Option Nat))) (scratch : MScratch) : Res (Nat × Bool) := do
  let queries ← read_queries dbg nsort (lines.take num_queries)
  let idx ← SIndex.mmap m a
  let (r, _) ← forEach (check_many dbg m idx (fun ls => ls.foldl merge_all [])
    (fun ss x out => union_many dbg m ss x out)) queries
    ((0, true), List.replicate idx.univ 0, scratch)
  return r

end Sliced
