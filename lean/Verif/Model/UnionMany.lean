import Verif.Model.IntersectionMany
/-! # union_many.hpp and uncompress_chunk_and_merge.hpp -/
namespace Sliced

/-- The loops of uncompress_chunk_and_merge.hpp:12-14 and 19-21 -/
def or_words_loop (b : Words) : (n i : Nat) → (out : List Nat) → Res (List Nat)
  | 0, _, out => .ok out
  | n + 1, i, out => do
    let y ← b i
    let x ← rdv out i
    let out ← wr out i (x ||| y)
    or_words_loop b n (i + 1) out

/-- uncompress_chunk_and_merge.hpp:7-15; `tmp` is the static scratch vector -/
def uncompress_sparse_chunk_and_merge (dbg : Bool) (m : Mem) (begin blocks : Nat)
    (tmp bitmap : List Nat) : Res (List Nat × List Nat) := do
  let tmp := List.replicate tmp.length 0
  let tmp ← uncompress_sparse_chunk dbg m begin blocks tmp 0
  let bitmap ← or_words_loop (vecWords tmp) chunk_size_in_64bit_words 0 bitmap
  return (tmp, bitmap)

/-- uncompress_chunk_and_merge.hpp:17-22 -/
def uncompress_dense_chunk_and_merge (m : Mem) (begin : Nat) (bitmap : List Nat) :
    Res (List Nat) :=
  or_words_loop (memWords m begin) chunk_size_in_64bit_words 0 bitmap

/-- uncompress_chunk_and_merge.hpp:24-28 -/
def uncompress_full_chunk_and_merge (bitmap : List Nat) : Res (List Nat) :=
  wrs bitmap 0 (List.replicate chunk_size_in_64bit_words 18446744073709551615)

/-- uncompress_chunk_and_merge.hpp:30-49 -/
def uncompress_chunk_and_merge (dbg : Bool) (m : Mem) (it : It) (tmp bitmap : List Nat) :
    Res (List Nat × List Nat) := do
  let t ← it.type m
  if t = type_sparse then do
    let blocks ← it.blocks m
    uncompress_sparse_chunk_and_merge dbg m it.data blocks tmp bitmap
  else if t = type_dense then do
    let bitmap ← uncompress_dense_chunk_and_merge m it.data bitmap
    return (tmp, bitmap)
  else if t = type_full then do
    let bitmap ← uncompress_full_chunk_and_merge bitmap
    return (tmp, bitmap)
  else unreachable dbg

/-- The function-local statics of `union_many`. -/
structure MScratch where
  /-- union_many.hpp:15 -/
  bitmap : List Nat
  /-- uncompress_chunk_and_merge.hpp:9 -/
  tmp : List Nat

/-- union_many.hpp:16-20, `min_element(...)->id()`: the smallest id (dereferencing `end()` for an
empty vector is UB). -/
def min_id (m : Mem) : List It → Res Nat
  | [] => .error .ub
  | it :: its => do
    let i ← it.id m
    its.foldlM (fun best it => do
      let j ← it.id m
      return if j < best then j else best) i

/-- union_many.hpp:24-33, the merge loop over the iterators -/
def merge_loop (dbg : Bool) (m : Mem) (header : Nat) :
    List It → (first : Bool) → MScratch → Res (Bool × MScratch)
  | [], first, s => .ok (first, s)
  | it :: its, first, s => do
    let i ← it.id m
    if i = header then
      if first then do
        let (_, bitmap) ← uncompress_chunk dbg m it s.bitmap 0
        merge_loop dbg m header its false { s with bitmap := bitmap }
      else do
        let (tmp, bitmap) ← uncompress_chunk_and_merge dbg m it s.tmp s.bitmap
        merge_loop dbg m header its first { s with tmp := tmp, bitmap := bitmap }
    else merge_loop dbg m header its first s

/-- union_many.hpp:37-40, advance the iterators that are on `header` and compute `next` -/
def step_loop (m : Mem) (header : Nat) : List It → (next : Nat) → Res (List It × Nat)
  | [], next => .ok ([], next)
  | it :: its, next => do
    let i ← it.id m
    let it ← if i = header then it.next m else pure it
    let j ← it.id m
    let (its, next) ← step_loop m header its (if j < next then j else next)
    return (it :: its, next)

/-- union_many.hpp:22-42, the main loop -/
def union_many_loop (dbg : Bool) (m : Mem) : (fuel : Nat) → (its : List It) → (header : Nat) →
    MScratch → (buf : List Nat) → (out : Nat) → Res (Nat × MScratch × List Nat)
  | 0, _, _, _, _, _ => .error .diverge
  | f + 1, its, header, s, buf, out =>
    if header < 65536 then do
      let base := u32 (header * 65536)
      let (_, s) ← merge_loop dbg m header its true s
      let (k, buf) ← decode_bitmap (vecWords s.bitmap) 1024 base buf out
      let (its, next) ← step_loop m header its 65536
      union_many_loop dbg m f its next s buf (out + k)
    else .ok (out, s, buf)

/-- union_many.hpp:8-45 -/
def union_many (dbg : Bool) (m : Mem) (sequences : List SSeq) (s : MScratch) (buf : List Nat)
    (out : Nat := 0) : Res (Nat × MScratch × List Nat) := do
  let its := sequences.map SSeq.begin
  let header ← min_id m its
  -- every iteration moves at least one iterator
  let (q, s, buf) ← union_many_loop dbg m (65537 + (its.map It.end_).sum) its header s buf out
  return (q - out, s, buf)

end Sliced
