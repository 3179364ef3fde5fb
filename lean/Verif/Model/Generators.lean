import Verif.Model.Tools
/-!
# The data and query generators in tools/

Random numbers are parameters: functions that give the number drawn in a given place.  What
`essentials::uniform_int_rng<uint32_t>(from, to)` guarantees is a hypothesis of the theorems: each
number is between `from` and `to`, both included.  `std::sort` is a parameter as well.
-/
namespace Sliced

/-- `std::unique`, the part before the iterator it returns: each run of equal elements is reduced to
one -/
def unique : List Nat → List Nat
  | [] => []
  | [x] => [x]
  | x :: y :: l => if x = y then unique (y :: l) else x :: unique (y :: l)

/-- building_util.hpp `write_uint` of the length and the elements of a list, as 32-bit words
(gen_uniform_data.cpp:29-31, gen_clustered_data.cpp:102-104) -/
def write_list (list : List Nat) : List Nat := u32 list.length :: list

/-- gen_uniform_data.cpp:10-34: the words of the output file.  `length i` is the number of elements
drawn for list `i`, `element i k` the `k`-th of them. -/
def gen_uniform (sort : List Nat → List Nat) (num_lists univ : Nat) (length : Nat → Nat)
    (element : Nat → Nat → Nat) : List Nat :=
  1 :: univ :: (List.range num_lists).flatMap (fun i =>
    write_list (unique (sort ((List.range (length i)).map (element i)))))

/-- gen_clustered_data.cpp:67-95, the loop over the slices of one list.  `code j` is the event drawn
for the `j`-th slice (0: skip, 1: all, otherwise: some), `some_of j` the elements drawn in it.
`fuel` bounds the number of iterations. -/
def gen_slices (univ : Nat) (code : Nat → Nat) (some_of : Nat → List Nat) :
    (fuel j left right : Nat) → List Nat → Res (List Nat)
  | 0, _, _, _, _ => .error .diverge
  | f + 1, j, left, right, list =>
    if left < univ then
      let last := min right univ
      gen_slices univ code some_of f (j + 1) right (u32 (right + chunk_size))
        (if code j = 0 then list
         else if code j = 1 then
           -- `for (uint32_t k = s.left; k != end; ++k) list.push_back(k)`
           list ++ (List.range (sub32 last left)).map (fun d => u32 (left + d))
         else list ++ some_of j)
    else .ok list

/-- the loop over the lists, gen_clustered_data.cpp:64-96; the elements of each list before sorting -/
def gen_lists (univ : Nat) (code : Nat → Nat → Nat) (some_of : Nat → Nat → List Nat) (fuel : Nat) :
    (n i : Nat) → Res (List (List Nat))
  | 0, _ => .ok []
  | n + 1, i => do
    let list ← gen_slices univ (code i) (some_of i) fuel 0 0 chunk_size []
    let lists ← gen_lists univ code some_of fuel n (i + 1)
    return list :: lists

/-- gen_clustered_data.cpp:46-104, binary mode: the words of the output file -/
def gen_clustered (sort : List Nat → List Nat) (num_lists univ : Nat) (code : Nat → Nat → Nat)
    (some_of : Nat → Nat → List Nat) (fuel : Nat) : Res (List Nat) := do
  let lists ← gen_lists univ code some_of fuel num_lists 0
  return 1 :: univ :: lists.flatMap (fun list => write_list (unique (sort list)))

/-- gen_clustered_data.cpp:64-108, text mode: the numbers written to the file.  The vector still has its
old length; what `std::unique` leaves behind the iterator it returns is not specified (`rest`). -/
def gen_clustered_text (sort rest : List Nat → List Nat) (num_lists univ : Nat)
    (code : Nat → Nat → Nat) (some_of : Nat → Nat → List Nat) (fuel : Nat) : Res (List Nat) := do
  let lists ← gen_lists univ code some_of fuel num_lists 0
  return lists.flatMap (fun list =>
    let l := sort list
    u32 (unique l).length :: (unique l ++ rest l))

/-- gen_random_select_queries.cpp:11-29: `rng i k hi` is the `k`-th number drawn for sequence `i`
between 0 and `hi`; returns the numbers that are printed -/
def gen_select_queries (dbg : Bool) (m : Mem) (a per_sequence : Nat) (rng : Nat → Nat → Nat → Nat) :
    Res (List Nat) := do
  let idx ← SIndex.mmap m a
  forRange (fun i queries => do
    let sequence ← idx.get dbg m i
    let cardinality ← sequence.cardinality m
    return queries ++ (List.range per_sequence).map (fun k => rng i k (sub32 cardinality 1)))
    idx.size 0 []

/-- gen_random_next_geq_queries.cpp:12-31: elements of the decoded sequence -/
def gen_next_geq_queries (dbg : Bool) (m : Mem) (a per_sequence : Nat)
    (rng : Nat → Nat → Nat → Nat) : Res (List Nat) := do
  let idx ← SIndex.mmap m a
  let (queries, _) ← forRange (fun i (s : List Nat × List Nat) => do
    let sequence ← idx.get dbg m i
    let (decoded, out) ← sequence.decode dbg m s.2
    let queries ← forRange (fun k queries => do
      let q ← rdv out (rng i k (u32 (decoded + 18446744073709551615)))
      return queries ++ [q]) per_sequence 0 s.1
    return (queries, out)) idx.size 0 ([], List.replicate idx.univ 0)
  return queries

/-- gen_random_pairwise_queries.cpp:5-10: `rng i b hi`, `b` is 0 or 1 -/
def gen_pairwise_queries (num_queries num_sequences : Nat) (rng : Nat → Nat → Nat → Nat) :
    List (Nat × Nat) :=
  (List.range num_queries).map (fun i =>
    (rng i 0 (sub32 num_sequences 1), rng i 1 (sub32 num_sequences 1)))

end Sliced
