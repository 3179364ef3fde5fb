import Verif.Model.Decode
import Verif.Model.Uncompress
/-! # intersection_many.hpp and uncompress_chunk_and_intersect.hpp -/
namespace Sliced

/-- The loops of uncompress_chunk_and_intersect.hpp:41-44 and 97-100:
`for (i != 1024) { out[i] &= in[i]; c += popcount(out[i]); }` (`n` words left, next word `i`) -/
def and_words_loop (b : Words) : (n i c : Nat) → (out : List Nat) → Res (Nat × List Nat)
  | 0, _, c, out => .ok (c, out)
  | n + 1, i, c, out => do
    let y ← b i
    let x ← rdv out i
    let out ← wr out i (x &&& y)
    and_words_loop b n (i + 1) (u32 (c + popcount (x &&& y))) out

/-- uncompress_chunk_and_intersect.hpp:35-45; `tmp` is the static scratch vector.  Returns the
cardinality, `tmp` and the bitmap. -/
def uncompress_sparse_chunk_and_intersect (dbg : Bool) (m : Mem) (begin blocks : Nat)
    (tmp bitmap : List Nat) : Res (Nat × List Nat × List Nat) := do
  let tmp := List.replicate tmp.length 0
  let tmp ← uncompress_sparse_chunk dbg m begin blocks tmp 0
  let (c, bitmap) ← and_words_loop (vecWords tmp) chunk_size_in_64bit_words 0 0 bitmap
  return (c, tmp, bitmap)

/-- uncompress_chunk_and_intersect.hpp:93-102 -/
def uncompress_dense_chunk_and_intersect (m : Mem) (begin : Nat) (bitmap : List Nat) :
    Res (Nat × List Nat) :=
  and_words_loop (memWords m begin) chunk_size_in_64bit_words 0 0 bitmap

/-- uncompress_chunk_and_intersect.hpp:104-119 -/
def uncompress_chunk_and_intersect (dbg : Bool) (m : Mem) (it : It) (tmp bitmap : List Nat)
    (cardinality : Nat) : Res (Nat × List Nat × List Nat) := do
  let t ← it.type m
  if t = type_sparse then do
    let blocks ← it.blocks m
    uncompress_sparse_chunk_and_intersect dbg m it.data blocks tmp bitmap
  else if t = type_dense then do
    let (c, bitmap) ← uncompress_dense_chunk_and_intersect m it.data bitmap
    return (c, tmp, bitmap)
  else if t = type_full then return (cardinality, tmp, bitmap)
  else unreachable dbg

/-- bounds-checked access to a vector of iterators (`iterators[i]`) -/
def rdIt (v : List It) (i : Nat) : Res It :=
  match v[i]? with
  | some x => .ok x
  | none => .error .ub

/-- intersection_many.hpp:25-33, the `for` loop of the candidate search (`i` increasing): returns
the iterators, the new candidate and the new `i`. -/
def candidate_for (m : Mem) : (fuel : Nat) → (its : List It) → (candidate i : Nat) →
    Res (List It × Nat × Nat)
  | 0, _, _, _ => .error .diverge
  | f + 1, its, candidate, i =>
    if i < its.length then do
      let it ← rdIt its i
      let it ← it.skip_to_value m candidate
      let its := its.set i it
      let val ← it.id m
      if val ≠ candidate then return (its, val, 0)
      else candidate_for m f its candidate (i + 1)
    else return (its, candidate, i)

/-- intersection_many.hpp:24-40, the `while` loop; `headers` is the static vector.  Returns
`num_headers` and `headers`. -/
def candidate_while (m : Mem) : (fuel : Nat) → (its : List It) → (candidate i : Nat) →
    (headers : List Nat) → (num_headers : Nat) → Res (Nat × List Nat)
  | 0, _, _, _, _, _ => .error .diverge
  | f + 1, its, candidate, i, headers, num_headers =>
    if candidate < 65536 then do
      let (its, candidate, i) ← candidate_for m (its.length + 1) its candidate i
      if i = its.length then do
        let headers ← wr headers num_headers (u16 candidate)
        let it0 ← rdIt its 0
        let it0 ← it0.next m
        let its := its.set 0 it0
        let candidate ← it0.id m
        candidate_while m f its candidate 1 headers (num_headers + 1)
      else candidate_while m f its candidate i headers num_headers
    else return (num_headers, headers)

/-- The function-local statics of `intersection`. -/
structure IScratch where
  /-- intersection_many.hpp:19 -/
  headers : List Nat
  /-- intersection_many.hpp:44 -/
  bitmap : List Nat
  /-- uncompress_chunk_and_intersect.hpp:37 -/
  tmp : List Nat

/-- intersection_many.hpp:61-67, the inner loop over the other iterators (`n` left, next `i`);
the Boolean tells whether `goto SKIP` was taken. -/
def intersect_rest (dbg : Bool) (m : Mem) (header : Nat) :
    (n i : Nat) → (its : List It) → (tmp bitmap : List Nat) → (cardinality : Nat) →
    Res (Bool × List It × List Nat × List Nat)
  | 0, _, its, tmp, bitmap, _ => .ok (false, its, tmp, bitmap)
  | n + 1, i, its, tmp, bitmap, cardinality => do
    let it ← rdIt its i
    let it ← it.advance m header
    let its := its.set i it
    let id ← it.id m
    cassert dbg (id == header)
    let (c, tmp, bitmap) ← uncompress_chunk_and_intersect dbg m it tmp bitmap cardinality
    let c := u32 c
    if c = 0 then return (true, its, tmp, bitmap)
    else intersect_rest dbg m header n (i + 1) its tmp bitmap c

/-- intersection_many.hpp:48-70, the loop over the headers (`n` left, next `i`) -/
def intersect_headers (dbg : Bool) (m : Mem) :
    (n i : Nat) → (its : List It) → IScratch → (buf : List Nat) → (out : Nat) →
    Res (Nat × IScratch × List Nat)
  | 0, _, _, s, buf, out => .ok (out, s, buf)
  | n + 1, i, its, s, buf, out => do
    let header ← rdv s.headers i
    let base := u32 (header * 65536)
    let it0 ← rdIt its 0
    let it0 ← it0.advance m header
    let its := its.set 0 it0
    let id ← it0.id m
    cassert dbg (id == header)
    let (cardinality, bitmap) ← uncompress_chunk dbg m it0 s.bitmap 0
    let (skip, its, tmp, bitmap) ←
      intersect_rest dbg m header (its.length - 1) 1 its s.tmp bitmap (u32 cardinality)
    let s := { s with tmp := tmp, bitmap := bitmap }
    if skip then intersect_headers dbg m n (i + 1) its s buf out
    else do
      let (k, buf) ← decode_bitmap (vecWords s.bitmap) 1024 base buf out
      intersect_headers dbg m n (i + 1) its s buf (out + k)

/-- `std::sort` with the comparator of intersection_many.hpp:10-13 is an external function.  The
model takes the sorted vector as an argument; the theorems assume only its contract (permutation of
the input, non-decreasing cardinality), so they hold for every implementation / tie-breaking.
intersection_many.hpp:8-74 from line 14 on; returns size, scratch and buffer. -/
def intersection_sorted (dbg : Bool) (m : Mem) (sequences : List SSeq) (s : IScratch)
    (buf : List Nat) (out : Nat := 0) : Res (Nat × IScratch × List Nat) := do
  let its := sequences.map SSeq.begin
  let it0 ← rdIt its 0
  let candidate ← it0.id m
  -- between two moves of the first iterator the candidate increases with every iteration, and it is
  -- at most 65536
  let (num_headers, headers) ← candidate_while m ((it0.end_ + 1) * 65537) its candidate 1 s.headers 0
  let s := { s with headers := headers }
  let (q, s, buf) ← intersect_headers dbg m num_headers 0 its s buf out
  return (q - out, s, buf)

/-- intersection_many.hpp:8-74: `sort` stands for `std::sort` (given the keys).  Returns also the
caller's vector after the call. -/
def intersection (dbg : Bool) (sort : (SSeq → Nat) → List SSeq → List SSeq) (m : Mem)
    (sequences : List SSeq) (s : IScratch) (buf : List Nat) (out : Nat := 0) :
    Res (Nat × List SSeq × IScratch × List Nat) := do
  -- the comparator calls `cardinality()`; evaluating it must not fail
  let keys ← sequences.mapM (fun q => do let c ← q.cardinality m; return (q, c))
  let key := fun q => ((keys.find? (fun p => p.1 = q)).map Prod.snd).getD 0
  let sequences := sort key sequences
  let (n, s, buf) ← intersection_sorted dbg m sequences s buf out
  return (n, sequences, s, buf)

end Sliced
