import Verif.Model.Float
import Verif.Model.Generators
/-! # The choice of events in tools/gen_clustered_data.cpp, and the statistics, in floating point -/
namespace Sliced

/-- gen_clustered_data.cpp:21-24, the loop of `gen_event`.  An event is its code and its probability.
Each iteration reads another event, so that the number of events bounds the iterations. -/
def gen_event_loop (events : List (Nat × Nat)) (p : Nat) : (fuel i cumulative : Nat) → Res Nat
  | 0, _, _ => .error .diverge
  | f + 1, i, cumulative =>
    if cumulative < p then
      match events[i + 1]? with
      | some e => gen_event_loop events p f (i + 1) (fadd cumulative e.2)
      | none => .error .ub
    else .ok i

/-- gen_clustered_data.cpp:17-27 -/
def gen_event (dbg : Bool) (events : List (Nat × Nat)) (p : Nat) : Res Nat := do
  cassert dbg (p ≤ funit)
  match events[0]? with
  | none => .error .ub
  | some e => do
    let i ← gen_event_loop events p (events.length + 1) 0 e.2
    cassert dbg (i < events.length)
    match events[i]? with
    | some e => return e.1
    | none => .error .ub

/-- gen_clustered_data.cpp:59-62; the literals are `double` and stored as `float` -/
def clustered_events : List (Nat × Nat) :=
  [(0, fofDouble (dlit 3 10)), (1, fofDouble (dlit 2 10)), (2, fofDouble (dlit 5 10))]

/-- gen_clustered_data.cpp:69 `float(rand()) / RAND_MAX`; the number drawn is `r` -/
def rand_float (rand_max r : Nat) : Nat := fdiv (fofNat r) (fofNat rand_max)

/-- gen_clustered_data.cpp:67-95, as `gen_slices` but from the numbers that `rand()` returns: `r j` is
the `j`-th -/
def gen_slices_rand (dbg : Bool) (rand_max univ : Nat) (r : Nat → Nat) (some_of : Nat → List Nat) :
    (fuel j left right : Nat) → List Nat → Res (List Nat)
  | 0, _, _, _, _ => .error .diverge
  | f + 1, j, left, right, list =>
    if left < univ then do
      let code ← gen_event dbg clustered_events (rand_float rand_max (r j))
      let last := min right univ
      if code = 0 then
        gen_slices_rand dbg rand_max univ r some_of f (j + 1) right (u32 (right + chunk_size)) list
      else if code = 1 then
        gen_slices_rand dbg rand_max univ r some_of f (j + 1) right (u32 (right + chunk_size))
          (list ++ (List.range (sub32 last left)).map (fun d => u32 (left + d)))
      else if code = 2 then
        gen_slices_rand dbg rand_max univ r some_of f (j + 1) right (u32 (right + chunk_size))
          (list ++ some_of j)
      else unreachable dbg
    else .ok list

/-- gen_clustered_data.cpp:64-96, as `gen_lists`; `r i j` is the `j`-th number drawn for list `i` -/
def gen_lists_rand (dbg : Bool) (rand_max univ : Nat) (r : Nat → Nat → Nat)
    (some_of : Nat → Nat → List Nat) (fuel : Nat) : (n i : Nat) → Res (List (List Nat))
  | 0, _ => .ok []
  | n + 1, i => do
    let list ← gen_slices_rand dbg rand_max univ (r i) (some_of i) fuel 0 0 chunk_size []
    let lists ← gen_lists_rand dbg rand_max univ r some_of fuel n (i + 1)
    return list :: lists

/-- gen_clustered_data.cpp:46-104, binary mode, as `gen_clustered` -/
def gen_clustered_rand (dbg : Bool) (sort : List Nat → List Nat) (rand_max num_lists univ : Nat)
    (r : Nat → Nat → Nat) (some_of : Nat → Nat → List Nat) (fuel : Nat) : Res (List Nat) := do
  let lists ← gen_lists_rand dbg rand_max univ r some_of fuel num_lists 0
  return 1 :: univ :: lists.flatMap (fun list => write_list (unique (sort list)))

/-- util.hpp:205-241, as `Stats.print`, with the averages in floating point -/
def Stats.print64 (log : Nat → Nat → Nat) (st : Stats) : Res (List (Nat × Nat)) :=
  forRange (fun i (s : List (Nat × Nat)) => do
    let n ← rdv st.num_integers i
    let d ← rdv st.num_blocks_in_chunks i
    let avg ← quotient64 n d
    let ef ← elias_fano_bitsize log avg chunk_size
    return s ++ [(avg, ef)]) 256 1 []

end Sliced
