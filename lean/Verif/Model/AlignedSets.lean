import Verif.Model.AlignedQueries
import Verif.Model.Intersection
import Verif.Model.Union
import Verif.Model.UnionMany
/-!
# The set operations with the alignment rule of C++

As Model/Aligned.lean and Model/AlignedQueries.lean: `pairwise_intersection`, `pairwise_union` and
`union_many` once more, with loads that check that the address of a 16-bit or 64-bit word is a multiple of
its size.  The functions are the ones of Model/{Intersection,Union,UnionMany}.lean with the accessors of
the iterator and the bitmaps of the encoding replaced by the checked ones.  What is used as it is: functions
that only read bytes (the `lddqu` loads have no rule, and the inline assembly of `uncompress_sparse_block`
reads bytes), `memcpy`, and reads of the static vectors and arrays, which are arrays of 64-bit words and so
aligned by the compiler.
-/
namespace Sliced

/-! ## intersection.hpp -/

/-- intersection.hpp:96-100, as `ds_intersect_block_loop` -/
def ds_intersect_block_loopA (m : Mem) (l r base out : Nat) :
    (n i k : Nat) → (buf : List Nat) → Res (Nat × List Nat)
  | 0, _, k, buf => .ok (k, buf)
  | n + 1, i, k, buf => do
    let key ← rd8 m (r + i)
    let buf ← wr buf (out + k) (u32 (key + base))
    let b ← bitmap_contains (memWordsA m l) key
    ds_intersect_block_loopA m l r base out n (i + 1) (k + (if b then 1 else 0)) buf

/-- intersection.hpp:92-102 -/
def ds_intersect_blockA (m : Mem) (l r card base : Nat) (buf : List Nat) (out : Nat) :
    Res (Nat × List Nat) :=
  ds_intersect_block_loopA m l r base out card 0 0 buf

/-- intersection.hpp:151-169, as `intersect_blocks` -/
def intersect_blocksA (dbg : Bool) (tab : Nat → List Nat) (m : Mem) (data_l data_r cl cr b : Nat)
    (buf : List Nat) (tmp : Nat) : Res (Nat × List Nat) :=
  let k := block_pair (block_type cl) (block_type cr)
  if k = block_pair type_sparse type_sparse then
    ss_intersect_block dbg tab m data_l data_r cl cr b buf tmp
  else if k = block_pair type_sparse type_dense then
    ds_intersect_blockA m data_r data_l cl b buf tmp
  else if k = block_pair type_dense type_sparse then
    ds_intersect_blockA m data_l data_r cr b buf tmp
  else if k = block_pair type_dense type_dense then
    and_bitmaps (memWordsA m data_l) (memWordsA m data_r) block_size_in_64bit_words b buf tmp
  else unreachable dbg

/-- intersection.hpp:114-180, as `ss_intersect_chunk_loop` -/
def ss_intersect_chunk_loopA (dbg : Bool) (tab : Nat → List Nat) (m : Mem) (end_l end_r base : Nat) :
    (fuel : Nat) → (l data_l r data_r : Nat) → (buf : List Nat) → (tmp : Nat) → Res (Nat × List Nat)
  | 0, _, _, _, _, _, _ => .error .diverge
  | f + 1, l, data_l, r, data_r, buf, tmp => do
    match ← skip_lower_blocks m end_l r (end_l - l + 1) l data_l with
    | none => return (tmp, buf)
    | some (l, data_l) =>
      match ← skip_lower_blocks m end_r l (end_r - r + 1) r data_r with
      | none => return (tmp, buf)
      | some (r, data_r) => do
        let x ← rd8 m l
        let y ← rd8 m r
        if x = y then do
          let id := x
          let cl1 ← rd8 m (l + 1)
          let cr1 ← rd8 m (r + 1)
          let cl := cl1 + 1
          let cr := cr1 + 1
          let b := u32 (base + id * 256)
          let (n, buf) ← intersect_blocksA dbg tab m data_l data_r cl cr b buf tmp
          let tmp := tmp + n
          if l + 2 = end_l ∨ r + 2 = end_r then return (tmp, buf)
          else
            ss_intersect_chunk_loopA dbg tab m end_l end_r base f
              (l + 2) (data_l + bytes_by_cardinality cl)
              (r + 2) (data_r + bytes_by_cardinality cr) buf tmp
        else ss_intersect_chunk_loopA dbg tab m end_l end_r base f l data_l r data_r buf tmp

/-- intersection.hpp:104-183 -/
def ss_intersect_chunkA (dbg : Bool) (tab : Nat → List Nat) (m : Mem)
    (l r blocks_l blocks_r base : Nat) (buf : List Nat) (out : Nat) : Res (Nat × List Nat) := do
  cassert dbg (blocks_l ≥ 1 && blocks_l ≤ 256)
  cassert dbg (blocks_r ≥ 1 && blocks_r ≤ 256)
  let data_l := l + blocks_l * 2
  let data_r := r + blocks_r * 2
  let (tmp, buf) ← ss_intersect_chunk_loopA dbg tab m data_l data_r base (blocks_l + blocks_r + 1)
    l data_l r data_r buf out
  return (tmp - out, buf)

/-- intersection.hpp:185-192 -/
def ds_intersect_chunkA (dbg : Bool) (m : Mem) (l r blocks_r base : Nat) (x : List Nat)
    (buf : List Nat) (out : Nat) : Res (Nat × List Nat × List Nat) := do
  let x := List.replicate x.length 0
  let x ← uncompress_sparse_chunk dbg m r blocks_r x 0
  let (n, buf) ← and_bitmaps (memWordsA m l) (vecWords x) chunk_size_in_64bit_words base buf out
  return (n, x, buf)

/-- intersection.hpp:204-261, as `intersect_chunks` -/
def intersect_chunksA (dbg : Bool) (tab : Nat → List Nat) (m : Mem) (it_l it_r : It) (base : Nat)
    (x : List Nat) (buf : List Nat) (out : Nat) : Res (Nat × List Nat × List Nat) := do
  let type_l ← it_l.typeA m
  let type_r ← it_r.typeA m
  let k := chunk_pair type_l type_r
  let keep := fun (p : Nat × List Nat) => (p.1, x, p.2)
  if k = chunk_pair type_sparse type_sparse then do
    let blocks_l ← it_l.blocksA m
    let blocks_r ← it_r.blocksA m
    if blocks_l < blocks_r then
      keep <$> ss_intersect_chunkA dbg tab m it_l.data it_r.data blocks_l blocks_r base buf out
    else
      keep <$> ss_intersect_chunkA dbg tab m it_r.data it_l.data blocks_r blocks_l base buf out
  else if k = chunk_pair type_sparse type_dense then do
    let blocks_l ← it_l.blocksA m
    ds_intersect_chunkA dbg m it_r.data it_l.data blocks_l base x buf out
  else if k = chunk_pair type_sparse type_full then do
    let blocks_l ← it_l.blocksA m
    keep <$> decode_sparse_chunkA dbg m it_l.data blocks_l base buf out
  else if k = chunk_pair type_dense type_sparse then do
    let blocks_r ← it_r.blocksA m
    ds_intersect_chunkA dbg m it_l.data it_r.data blocks_r base x buf out
  else if k = chunk_pair type_dense type_dense then
    keep <$> and_bitmaps (memWordsA m it_l.data) (memWordsA m it_r.data) chunk_size_in_64bit_words
      base buf out
  else if k = chunk_pair type_dense type_full then
    keep <$> decode_bitmap (memWordsA m it_l.data) chunk_size_in_64bit_words base buf out
  else if k = chunk_pair type_full type_sparse then do
    let blocks_r ← it_r.blocksA m
    keep <$> decode_sparse_chunkA dbg m it_r.data blocks_r base buf out
  else if k = chunk_pair type_full type_dense then
    keep <$> decode_bitmap (memWordsA m it_r.data) chunk_size_in_64bit_words base buf out
  else if k = chunk_pair type_full type_full then
    keep <$> decode_full_chunk base buf out
  else unreachable dbg

/-- intersection.hpp:199-272 -/
def pairwise_intersection_loopA (dbg : Bool) (tab : Nat → List Nat) (m : Mem) :
    (fuel : Nat) → (it_l it_r : It) → (x buf : List Nat) → (out : Nat) →
    Res (Nat × List Nat × List Nat)
  | 0, _, _, _, _, _ => .error .diverge
  | f + 1, it_l, it_r, x, buf, out =>
    if it_l.has_next && it_r.has_next then do
      let i_l ← it_l.idA m
      let i_r ← it_r.idA m
      let id_l := u16 i_l
      let id_r := u16 i_r
      if id_l = id_r then do
        let base := u32 (id_l * 65536)
        let (n, x, buf) ← intersect_chunksA dbg tab m it_l it_r base x buf out
        let it_l ← it_l.nextA m
        let it_r ← it_r.nextA m
        pairwise_intersection_loopA dbg tab m f it_l it_r x buf (out + n)
      else if id_l < id_r then do
        let it_l ← it_l.advanceA m id_r
        pairwise_intersection_loopA dbg tab m f it_l it_r x buf out
      else do
        let it_r ← it_r.advanceA m id_l
        pairwise_intersection_loopA dbg tab m f it_l it_r x buf out
    else .ok (out, x, buf)

/-- intersection.hpp:194-274 -/
def pairwise_intersectionA (dbg : Bool) (tab : Nat → List Nat) (m : Mem) (l r : SSeq)
    (x buf : List Nat) (out : Nat := 0) : Res (Nat × List Nat × List Nat) := do
  let (q, x, buf) ← pairwise_intersection_loopA dbg tab m (l.chunks + r.chunks + 1) l.begin r.begin
    x buf out
  return (q - out, x, buf)

/-- `pairwise_intersection(s_sequence(a), s_sequence(b), out)` -/
def intersectionAtA (dbg : Bool) (tab : Nat → List Nat) (m : Mem) (a b : Nat) (x buf : List Nat) :
    Res (Nat × List Nat × List Nat) := do
  let l ← SSeq.ofAddrA m a
  let r ← SSeq.ofAddrA m b
  pairwise_intersectionA dbg tab m l r x buf

/-! ## union.hpp -/

/-- union.hpp:62-69; the `memcpy` of line 65 copies bytes -/
def ds_union_blockA (m : Mem) (l r cardinality base : Nat) (x buf : List Nat) (out : Nat) :
    Res (Nat × List Nat × List Nat) := do
  let x ← memcpy_words (memWords m l) (block_size / 8 / 8) 0 x 0
  let x ← uncompress_sparse_block m r cardinality x 0
  let (n, buf) ← or_bitmaps (memWordsA m l) (vecWords x) block_size_in_64bit_words base buf out
  return (n, x, buf)

/-- union.hpp:71-78 -/
def decode_blockA (m : Mem) (data type cardinality base : Nat) (buf : List Nat) (out : Nat) :
    Res (Nat × List Nat) :=
  if type = type_sparse then decode_sparse_block m data cardinality base buf out
  else decode_bitmap (memWordsA m data) block_size_in_64bit_words base buf out

/-- union.hpp:10-21 `DECODE(ptr)` -/
def decode_macroA (m : Mem) (base ptr data : Nat) (buf : List Nat) (out : Nat) :
    Res (Nat × List Nat × Nat × Nat) := do
  let id ← rd8 m ptr
  let c1 ← rd8 m (ptr + 1)
  let c := c1 + 1
  let (n, buf) ← decode_blockA m data (block_type c) c (u32 (base + id * 256)) buf out
  return (out + n, buf, data + bytes_by_cardinality c, ptr + 2)

/-- union.hpp:122-140 -/
def union_blocksA (dbg : Bool) (m : Mem) (data_l data_r cl cr b : Nat)
    (x4 buf : List Nat) (out : Nat) : Res (Nat × List Nat × List Nat) :=
  let k := block_pair (block_type cl) (block_type cr)
  let keep := fun (p : Nat × List Nat) => (p.1, x4, p.2)
  if k = block_pair type_sparse type_sparse then
    keep <$> ss_union_block dbg m data_l data_r cl cr b buf out
  else if k = block_pair type_sparse type_dense then
    ds_union_blockA m data_r data_l cl b x4 buf out
  else if k = block_pair type_dense type_sparse then
    ds_union_blockA m data_l data_r cr b x4 buf out
  else if k = block_pair type_dense type_dense then
    keep <$> or_bitmaps (memWordsA m data_l) (memWordsA m data_r) block_size_in_64bit_words b buf out
  else unreachable dbg

/-- union.hpp:91-150, the merge loop -/
def ss_union_chunk_loopA (dbg : Bool) (m : Mem) (end_l end_r base : Nat) :
    (fuel : Nat) → UState → Res UState
  | 0, _ => .error .diverge
  | f + 1, s => do
    let x ← rd8 m s.l
    let y ← rd8 m s.r
    if x < y then do
      let (out, buf, data_l, l) ← decode_macroA m base s.l s.data_l s.buf s.out
      let s := { s with l := l, data_l := data_l, out := out, buf := buf }
      if s.l = end_l then return s else ss_union_chunk_loopA dbg m end_l end_r base f s
    else if x > y then do
      let (out, buf, data_r, r) ← decode_macroA m base s.r s.data_r s.buf s.out
      let s := { s with r := r, data_r := data_r, out := out, buf := buf }
      if s.r = end_r then return s else ss_union_chunk_loopA dbg m end_l end_r base f s
    else do
      let id := x
      let cl1 ← rd8 m (s.l + 1)
      let cr1 ← rd8 m (s.r + 1)
      let cl := cl1 + 1
      let cr := cr1 + 1
      let b := u32 (base + id * 256)
      let (n, x4, buf) ← union_blocksA dbg m s.data_l s.data_r cl cr b s.x4 s.buf s.out
      let s := { l := s.l + 2, data_l := s.data_l + bytes_by_cardinality cl,
                 r := s.r + 2, data_r := s.data_r + bytes_by_cardinality cr,
                 out := s.out + n, x4 := x4, buf := buf }
      if s.l = end_l ∨ s.r = end_r then return s
      else ss_union_chunk_loopA dbg m end_l end_r base f s

/-- union.hpp:152 / 153 -/
def decode_restA (m : Mem) (end_ base : Nat) : (fuel : Nat) → (ptr data : Nat) → (buf : List Nat) →
    (out : Nat) → Res (Nat × List Nat)
  | 0, _, _, _, _ => .error .diverge
  | f + 1, ptr, data, buf, out =>
    if ptr ≠ end_ then do
      let (out, buf, data, ptr) ← decode_macroA m base ptr data buf out
      decode_restA m end_ base f ptr data buf out
    else .ok (out, buf)

/-- union.hpp:80-156 -/
def ss_union_chunkA (dbg : Bool) (m : Mem) (l r blocks_l blocks_r base : Nat) (x4 buf : List Nat)
    (out : Nat) : Res (Nat × List Nat × List Nat) := do
  cassert dbg (blocks_l ≥ 1 && blocks_l ≤ 256)
  cassert dbg (blocks_r ≥ 1 && blocks_r ≤ 256)
  let end_l := l + blocks_l * 2
  let end_r := r + blocks_r * 2
  let s ← ss_union_chunk_loopA dbg m end_l end_r base (blocks_l + blocks_r + 1)
    { l := l, data_l := end_l, r := r, data_r := end_r, out := out, x4 := x4, buf := buf }
  let (o, buf) ← decode_restA m end_l base (blocks_l + 1) s.l s.data_l s.buf s.out
  let (o, buf) ← decode_restA m end_r base (blocks_r + 1) s.r s.data_r buf o
  return (o - out, s.x4, buf)

/-- union.hpp:158-165 -/
def ds_union_chunkA (dbg : Bool) (m : Mem) (l r blocks_r base : Nat) (x buf : List Nat)
    (out : Nat) : Res (Nat × List Nat × List Nat) := do
  let x := List.replicate x.length 0
  let x ← uncompress_sparse_chunk dbg m r blocks_r x 0
  let (n, buf) ← or_bitmaps (memWordsA m l) (vecWords x) chunk_size_in_64bit_words base buf out
  return (n, x, buf)

/-- union.hpp:177-228 -/
def union_chunksA (dbg : Bool) (m : Mem) (it_l it_r : It) (base : Nat) (s : UScratch)
    (buf : List Nat) (out : Nat) : Res (Nat × UScratch × List Nat) := do
  let type_l ← it_l.typeA m
  let type_r ← it_r.typeA m
  let k := chunk_pair type_l type_r
  let full := (fun (p : Nat × List Nat) => (p.1, s, p.2)) <$> decode_full_chunk base buf out
  let big := fun (p : Nat × List Nat × List Nat) => (p.1, { s with x := p.2.1 }, p.2.2)
  let small := fun (p : Nat × List Nat × List Nat) => (p.1, { s with x4 := p.2.1 }, p.2.2)
  if k = chunk_pair type_sparse type_sparse then do
    let blocks_l ← it_l.blocksA m
    let blocks_r ← it_r.blocksA m
    if blocks_l < blocks_r then
      small <$> ss_union_chunkA dbg m it_l.data it_r.data blocks_l blocks_r base s.x4 buf out
    else
      small <$> ss_union_chunkA dbg m it_r.data it_l.data blocks_r blocks_l base s.x4 buf out
  else if k = chunk_pair type_sparse type_dense then do
    let blocks_l ← it_l.blocksA m
    big <$> ds_union_chunkA dbg m it_r.data it_l.data blocks_l base s.x buf out
  else if k = chunk_pair type_sparse type_full then full
  else if k = chunk_pair type_dense type_sparse then do
    let blocks_r ← it_r.blocksA m
    big <$> ds_union_chunkA dbg m it_l.data it_r.data blocks_r base s.x buf out
  else if k = chunk_pair type_dense type_dense then
    (fun (p : Nat × List Nat) => (p.1, s, p.2)) <$>
      or_bitmaps (memWordsA m it_l.data) (memWordsA m it_r.data) chunk_size_in_64bit_words base buf
        out
  else if k = chunk_pair type_dense type_full then full
  else if k = chunk_pair type_full type_sparse then full
  else if k = chunk_pair type_full type_dense then full
  else if k = chunk_pair type_full type_full then full
  else unreachable dbg

/-- union.hpp:172-245 -/
def pairwise_union_loopA (dbg : Bool) (m : Mem) :
    (fuel : Nat) → (it_l it_r : It) → (s : UScratch) → (buf : List Nat) → (out : Nat) →
    Res (It × It × Nat × UScratch × List Nat)
  | 0, _, _, _, _, _ => .error .diverge
  | f + 1, it_l, it_r, s, buf, out => do
    let i_l ← it_l.idA m
    let i_r ← it_r.idA m
    let id_l := u16 i_l
    let id_r := u16 i_r
    if id_l = id_r then do
      let base := u32 (id_l * 65536)
      let (n, s, buf) ← union_chunksA dbg m it_l it_r base s buf out
      let it_l ← it_l.nextA m
      let it_r ← it_r.nextA m
      if !it_l.has_next || !it_r.has_next then return (it_l, it_r, out + n, s, buf)
      else pairwise_union_loopA dbg m f it_l it_r s buf (out + n)
    else if id_l < id_r then do
      let (n, buf) ← decode_chunkA dbg m it_l buf out
      let it_l ← it_l.nextA m
      if !it_l.has_next then return (it_l, it_r, out + n, s, buf)
      else pairwise_union_loopA dbg m f it_l it_r s buf (out + n)
    else do
      let (n, buf) ← decode_chunkA dbg m it_r buf out
      let it_r ← it_r.nextA m
      if !it_r.has_next then return (it_l, it_r, out + n, s, buf)
      else pairwise_union_loopA dbg m f it_l it_r s buf (out + n)

/-- union.hpp:247-250 / 252-255 -/
def decode_tailA (dbg : Bool) (m : Mem) : (fuel : Nat) → It → (buf : List Nat) → (out : Nat) →
    Res (Nat × List Nat)
  | 0, _, _, _ => .error .diverge
  | f + 1, it, buf, out =>
    if it.has_next then do
      let (n, buf) ← decode_chunkA dbg m it buf out
      let it ← it.nextA m
      decode_tailA dbg m f it buf (out + n)
    else .ok (out, buf)

/-- union.hpp:167-258 -/
def pairwise_unionA (dbg : Bool) (m : Mem) (l r : SSeq) (s : UScratch) (buf : List Nat)
    (out : Nat := 0) : Res (Nat × UScratch × List Nat) := do
  let (it_l, it_r, o, s, buf) ← pairwise_union_loopA dbg m (l.chunks + r.chunks + 1) l.begin r.begin
    s buf out
  let (o, buf) ← decode_tailA dbg m (l.chunks + 1) it_l buf o
  let (o, buf) ← decode_tailA dbg m (r.chunks + 1) it_r buf o
  return (o - out, s, buf)

/-- `pairwise_union(s_sequence(a), s_sequence(b), out)` -/
def unionAtA (dbg : Bool) (m : Mem) (a b : Nat) (s : UScratch) (buf : List Nat) :
    Res (Nat × UScratch × List Nat) := do
  let l ← SSeq.ofAddrA m a
  let r ← SSeq.ofAddrA m b
  pairwise_unionA dbg m l r s buf

/-! ## union_many.hpp and uncompress_chunk_and_merge.hpp -/

/-- uncompress_chunk_and_merge.hpp:30-49 -/
def uncompress_chunk_and_mergeA (dbg : Bool) (m : Mem) (it : It) (tmp bitmap : List Nat) :
    Res (List Nat × List Nat) := do
  let t ← it.typeA m
  if t = type_sparse then do
    let blocks ← it.blocksA m
    uncompress_sparse_chunk_and_merge dbg m it.data blocks tmp bitmap
  else if t = type_dense then do
    -- lines 17-22
    let bitmap ← or_words_loop (memWordsA m it.data) chunk_size_in_64bit_words 0 bitmap
    return (tmp, bitmap)
  else if t = type_full then do
    let bitmap ← uncompress_full_chunk_and_merge bitmap
    return (tmp, bitmap)
  else unreachable dbg

/-- union_many.hpp:16-20 -/
def min_idA (m : Mem) : List It → Res Nat
  | [] => .error .ub
  | it :: its => do
    let i ← it.idA m
    its.foldlM (fun best it => do
      let j ← it.idA m
      return if j < best then j else best) i

/-- union_many.hpp:24-33 -/
def merge_loopA (dbg : Bool) (m : Mem) (header : Nat) :
    List It → (first : Bool) → MScratch → Res (Bool × MScratch)
  | [], first, s => .ok (first, s)
  | it :: its, first, s => do
    let i ← it.idA m
    if i = header then
      if first then do
        let (_, bitmap) ← uncompress_chunkA dbg m it s.bitmap 0
        merge_loopA dbg m header its false { s with bitmap := bitmap }
      else do
        let (tmp, bitmap) ← uncompress_chunk_and_mergeA dbg m it s.tmp s.bitmap
        merge_loopA dbg m header its first { s with tmp := tmp, bitmap := bitmap }
    else merge_loopA dbg m header its first s

/-- union_many.hpp:37-40 -/
def step_loopA (m : Mem) (header : Nat) : List It → (next : Nat) → Res (List It × Nat)
  | [], next => .ok ([], next)
  | it :: its, next => do
    let i ← it.idA m
    let it ← if i = header then it.nextA m else pure it
    let j ← it.idA m
    let (its, next) ← step_loopA m header its (if j < next then j else next)
    return (it :: its, next)

/-- union_many.hpp:22-42 -/
def union_many_loopA (dbg : Bool) (m : Mem) : (fuel : Nat) → (its : List It) → (header : Nat) →
    MScratch → (buf : List Nat) → (out : Nat) → Res (Nat × MScratch × List Nat)
  | 0, _, _, _, _, _ => .error .diverge
  | f + 1, its, header, s, buf, out =>
    if header < 65536 then do
      let base := u32 (header * 65536)
      let (_, s) ← merge_loopA dbg m header its true s
      let (k, buf) ← decode_bitmap (vecWords s.bitmap) 1024 base buf out
      let (its, next) ← step_loopA m header its 65536
      union_many_loopA dbg m f its next s buf (out + k)
    else .ok (out, s, buf)

/-- union_many.hpp:8-45 -/
def union_manyA (dbg : Bool) (m : Mem) (sequences : List SSeq) (s : MScratch) (buf : List Nat)
    (out : Nat := 0) : Res (Nat × MScratch × List Nat) := do
  let its := sequences.map SSeq.begin
  let header ← min_idA m its
  let (q, s, buf) ← union_many_loopA dbg m (65537 + (its.map It.end_).sum) its header s buf out
  return (q - out, s, buf)

/-- the sequences at the addresses `as` are built first, then `union_many` is called -/
def unionManyAtA (dbg : Bool) (m : Mem) (as : List Nat) (s : MScratch) (buf : List Nat) :
    Res (Nat × MScratch × List Nat) := do
  let sequences ← as.mapM (SSeq.ofAddrA m)
  union_manyA dbg m sequences s buf

end Sliced
