import Verif.Model.AlignedSets
import Verif.Model.IntersectionMany
/-!
# The many-way `intersection` with the alignment rule of C++

As Model/AlignedSets.lean, for intersection_many.hpp and uncompress_chunk_and_intersect.hpp: the functions
of Model/IntersectionMany.lean with the accessors of the iterator and the bitmaps of the encoding replaced
by the checked ones.  The static vectors are arrays of 64-bit (or 16-bit) words and aligned by the compiler.
-/
namespace Sliced

/-- uncompress_chunk_and_intersect.hpp:104-119 -/
def uncompress_chunk_and_intersectA (dbg : Bool) (m : Mem) (it : It) (tmp bitmap : List Nat)
    (cardinality : Nat) : Res (Nat × List Nat × List Nat) := do
  let t ← it.typeA m
  if t = type_sparse then do
    let blocks ← it.blocksA m
    uncompress_sparse_chunk_and_intersect dbg m it.data blocks tmp bitmap
  else if t = type_dense then do
    -- lines 93-102
    let (c, bitmap) ← and_words_loop (memWordsA m it.data) chunk_size_in_64bit_words 0 0 bitmap
    return (c, tmp, bitmap)
  else if t = type_full then return (cardinality, tmp, bitmap)
  else unreachable dbg

/-- intersection_many.hpp:25-33 -/
def candidate_forA (m : Mem) : (fuel : Nat) → (its : List It) → (candidate i : Nat) →
    Res (List It × Nat × Nat)
  | 0, _, _, _ => .error .diverge
  | f + 1, its, candidate, i =>
    if i < its.length then do
      let it ← rdIt its i
      let it ← it.skip_to_valueA m candidate
      let its := its.set i it
      let val ← it.idA m
      if val ≠ candidate then return (its, val, 0)
      else candidate_forA m f its candidate (i + 1)
    else return (its, candidate, i)

/-- intersection_many.hpp:24-40 -/
def candidate_whileA (m : Mem) : (fuel : Nat) → (its : List It) → (candidate i : Nat) →
    (headers : List Nat) → (num_headers : Nat) → Res (Nat × List Nat)
  | 0, _, _, _, _, _ => .error .diverge
  | f + 1, its, candidate, i, headers, num_headers =>
    if candidate < 65536 then do
      let (its, candidate, i) ← candidate_forA m (its.length + 1) its candidate i
      if i = its.length then do
        let headers ← wr headers num_headers (u16 candidate)
        let it0 ← rdIt its 0
        let it0 ← it0.nextA m
        let its := its.set 0 it0
        let candidate ← it0.idA m
        candidate_whileA m f its candidate 1 headers (num_headers + 1)
      else candidate_whileA m f its candidate i headers num_headers
    else return (num_headers, headers)

/-- intersection_many.hpp:61-67 -/
def intersect_restA (dbg : Bool) (m : Mem) (header : Nat) :
    (n i : Nat) → (its : List It) → (tmp bitmap : List Nat) → (cardinality : Nat) →
    Res (Bool × List It × List Nat × List Nat)
  | 0, _, its, tmp, bitmap, _ => .ok (false, its, tmp, bitmap)
  | n + 1, i, its, tmp, bitmap, cardinality => do
    let it ← rdIt its i
    let it ← it.advanceA m header
    let its := its.set i it
    let id ← it.idA m
    cassert dbg (id == header)
    let (c, tmp, bitmap) ← uncompress_chunk_and_intersectA dbg m it tmp bitmap cardinality
    let c := u32 c
    if c = 0 then return (true, its, tmp, bitmap)
    else intersect_restA dbg m header n (i + 1) its tmp bitmap c

/-- intersection_many.hpp:48-70 -/
def intersect_headersA (dbg : Bool) (m : Mem) :
    (n i : Nat) → (its : List It) → IScratch → (buf : List Nat) → (out : Nat) →
    Res (Nat × IScratch × List Nat)
  | 0, _, _, s, buf, out => .ok (out, s, buf)
  | n + 1, i, its, s, buf, out => do
    let header ← rdv s.headers i
    let base := u32 (header * 65536)
    let it0 ← rdIt its 0
    let it0 ← it0.advanceA m header
    let its := its.set 0 it0
    let id ← it0.idA m
    cassert dbg (id == header)
    let (cardinality, bitmap) ← uncompress_chunkA dbg m it0 s.bitmap 0
    let (skip, its, tmp, bitmap) ←
      intersect_restA dbg m header (its.length - 1) 1 its s.tmp bitmap (u32 cardinality)
    let s := { s with tmp := tmp, bitmap := bitmap }
    if skip then intersect_headersA dbg m n (i + 1) its s buf out
    else do
      let (k, buf) ← decode_bitmap (vecWords s.bitmap) 1024 base buf out
      intersect_headersA dbg m n (i + 1) its s buf (out + k)

/-- intersection_many.hpp:8-74 from line 14 on -/
def intersection_sortedA (dbg : Bool) (m : Mem) (sequences : List SSeq) (s : IScratch)
    (buf : List Nat) (out : Nat := 0) : Res (Nat × IScratch × List Nat) := do
  let its := sequences.map SSeq.begin
  let it0 ← rdIt its 0
  let candidate ← it0.idA m
  let (num_headers, headers) ←
    candidate_whileA m ((it0.end_ + 1) * 65537) its candidate 1 s.headers 0
  let s := { s with headers := headers }
  let (q, s, buf) ← intersect_headersA dbg m num_headers 0 its s buf out
  return (q - out, s, buf)

/-- intersection_many.hpp:8-74 -/
def intersectionA (dbg : Bool) (sort : (SSeq → Nat) → List SSeq → List SSeq) (m : Mem)
    (sequences : List SSeq) (s : IScratch) (buf : List Nat) (out : Nat := 0) :
    Res (Nat × List SSeq × IScratch × List Nat) := do
  let keys ← sequences.mapM (fun q => do let c ← q.cardinalityA m; return (q, c))
  let key := fun q => ((keys.find? (fun p => p.1 = q)).map Prod.snd).getD 0
  let sequences := sort key sequences
  let (n, s, buf) ← intersection_sortedA dbg m sequences s buf out
  return (n, sequences, s, buf)

/-- the sequences at the addresses `as` are built first, then `intersection` is called -/
def intersectionManyAtA (dbg : Bool) (sort : (SSeq → Nat) → List SSeq → List SSeq) (m : Mem)
    (as : List Nat) (s : IScratch) (buf : List Nat) : Res (Nat × List SSeq × IScratch × List Nat) := do
  let sequences ← as.mapM (SSeq.ofAddrA m)
  intersectionA dbg sort m sequences s buf

end Sliced
