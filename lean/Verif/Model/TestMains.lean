import Verif.Model.Tests
import Verif.Model.Text
/-!
# The main functions of the test programs that read queries

`test` is the rest of the program: the index is looked up by the name of its file.  The result is `none` if
only the usage is printed.
-/
namespace Sliced

/-- test_intersect.cpp:12-54 -/
def run_test_intersect (dbg : Bool) (sort : (SSeq → Nat) → List SSeq → List SSeq) (m : Mem) (a : Nat)
    (queries : List (Nat × Nat)) (scratch : IScratch) : Res (Nat × Bool) := do
  let idx ← SIndex.mmap m a
  let (good, _) ← forEach (check_pair dbg m idx merge_common (fun l r x out => do
    let (n, _, x, out) ← intersection dbg sort m [l, r] x out
    return (n, x, out))) queries (true, Bufs.init idx.univ, scratch)
  return (queries.length, good)

/-- test_union.cpp:10-46 -/
def run_test_union (dbg : Bool) (m : Mem) (a : Nat) (queries : List (Nat × Nat)) (scratch : UScratch) :
    Res (Nat × Bool) := do
  let idx ← SIndex.mmap m a
  let (good, _) ← forEach (check_pair dbg m idx merge_all
    (fun l r x out => pairwise_union dbg m l r x out 0)) queries (true, Bufs.init idx.univ, scratch)
  return (queries.length, good)

/-- test_intersect.cpp:56-80, test_union.cpp:48-72 -/
def pairs_test_main (conv : Bool → Nat → Res Nat) (test : String → List (Nat × Nat) → Res (Nat × Bool))
    (argv : List String) (input : List Char) : Res (Option (Nat × Bool)) :=
  match argv with
  | _ :: file :: num :: _ => do
    let num_queries ← stoull num.toList
    reserve 8 num_queries
    let queries ← scan_pairs conv (rounds num_queries input) input
    let r ← test file queries
    return some r
  | _ => .ok none

/-- test_intersect_many.cpp:57-93 -/
def run_test_intersect_many (dbg : Bool) (sort : (SSeq → Nat) → List SSeq → List SSeq) (m : Mem) (a : Nat)
    (queries : List (List Nat)) (scratch : IScratch) : Res (Nat × Bool) := do
  let idx ← SIndex.mmap m a
  let (r, _) ← forEach (check_many dbg m idx fold_common (fun ss x out => do
    let (n, _, x, out) ← intersection dbg sort m ss x out
    return (n, x, out))) queries ((0, true), List.replicate idx.univ 0, scratch)
  return r

/-- test_union_many.cpp:70-106 -/
def run_test_union_many (dbg : Bool) (m : Mem) (a : Nat) (queries : List (List Nat)) (scratch : MScratch) :
    Res (Nat × Bool) := do
  let idx ← SIndex.mmap m a
  let (r, _) ← forEach (check_many dbg m idx (fun ls => ls.foldl merge_all [])
    (fun ss x out => union_many dbg m ss x out)) queries ((0, true), List.replicate idx.univ 0, scratch)
  return r

/-- test_intersect_many.cpp:111-115, test_union_many.cpp:124-128: one query for each line -/
def queries_of_lines (dbg : Bool) (minus : Nat → Nat) (nsort : List Nat → List Nat) :
    List (List Char) → Res (List (List Nat))
  | [] => .ok []
  | line :: lines => do
    let q := readQueryText minus nsort line
    cassert dbg (!q.isEmpty)
    let qs ← queries_of_lines dbg minus nsort lines
    return q :: qs

/-- test_intersect_many.cpp:95-121, test_union_many.cpp:108-134; a `query_type` is three pointers -/
def lines_test_main (dbg : Bool) (minus : Nat → Nat) (nsort : List Nat → List Nat)
    (test : String → List (List Nat) → Res (Nat × Bool)) (argv : List String) (input : List Char) :
    Res (Option (Nat × Bool)) :=
  match argv with
  | _ :: file :: num :: _ => do
    let num_queries ← stoull num.toList
    reserve 24 num_queries
    let queries ← queries_of_lines dbg minus nsort ((splitLines input).take num_queries)
    let r ← test file queries
    return some r
  | _ => .ok none

end Sliced
