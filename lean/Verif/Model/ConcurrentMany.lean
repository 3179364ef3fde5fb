import Verif.Model.Concurrent
import Verif.Model.UnionMany
/-!
# union_many and intersection as programs

As in `Verif/Model/Concurrent.lean`: a step is one phase of the use of a function-local `static` object
(here: clearing or filling `tmp`, uncompressing into `bitmap`, combining `bitmap` with a slice, storing
or reading an entry of `headers`, decoding `bitmap`).  `Verif/Proof/ConcurrentMany.lean` proves that a
program that runs alone is the function it was copied from.
-/
namespace Sliced

/-- a step that writes the shared state and returns a value -/
def Prog.update {σ α : Type} (f : σ → Res (α × σ)) : Prog σ α := .act α f .ret

/-! ## union_many -/

/-- uncompress_chunk_and_merge.hpp:7-15 -/
def uncompress_sparse_chunk_and_merge_prog (dbg : Bool) (m : Mem) (begin blocks : Nat) :
    Prog MScratch Unit := do
  .write (fun s => .ok { s with tmp := List.replicate s.tmp.length 0 })
  .write (fun s => (fun t => { s with tmp := t }) <$> uncompress_sparse_chunk dbg m begin blocks s.tmp 0)
  .write (fun s => (fun b => { s with bitmap := b }) <$>
    or_words_loop (vecWords s.tmp) chunk_size_in_64bit_words 0 s.bitmap)

/-- uncompress_chunk_and_merge.hpp:30-49 -/
def uncompress_chunk_and_merge_prog (dbg : Bool) (m : Mem) (it : It) : Prog MScratch Unit := do
  let t ← .lift (it.type m)
  if t = type_sparse then do
    let blocks ← .lift (it.blocks m)
    uncompress_sparse_chunk_and_merge_prog dbg m it.data blocks
  else if t = type_dense then
    .write (fun s => (fun b => { s with bitmap := b }) <$>
      uncompress_dense_chunk_and_merge m it.data s.bitmap)
  else if t = type_full then
    .write (fun s => (fun b => { s with bitmap := b }) <$> uncompress_full_chunk_and_merge s.bitmap)
  else .lift (unreachable dbg)

/-- union_many.hpp:24-33 -/
def merge_loop_prog (dbg : Bool) (m : Mem) (header : Nat) : List It → (first : Bool) → Prog MScratch Bool
  | [], first => return first
  | it :: its, first => do
    let i ← .lift (it.id m)
    if i = header then
      if first then do
        .write (fun s => (fun p => { s with bitmap := p.2 }) <$> uncompress_chunk dbg m it s.bitmap 0)
        merge_loop_prog dbg m header its false
      else do
        uncompress_chunk_and_merge_prog dbg m it
        merge_loop_prog dbg m header its first
    else merge_loop_prog dbg m header its first

/-- union_many.hpp:22-42 -/
def union_many_loop_prog (dbg : Bool) (m : Mem) : (fuel : Nat) → (its : List It) → (header : Nat) →
    (buf : List Nat) → (out : Nat) → Prog MScratch (Nat × List Nat)
  | 0, _, _, _, _ => .lift (.error .diverge)
  | f + 1, its, header, buf, out =>
    if header < 65536 then do
      let base := u32 (header * 65536)
      let _ ← merge_loop_prog dbg m header its true
      let (k, buf) ← .read (fun s => decode_bitmap (vecWords s.bitmap) 1024 base buf out)
      let (its, next) ← .lift (step_loop m header its 65536)
      union_many_loop_prog dbg m f its next buf (out + k)
    else return (out, buf)

/-- union_many.hpp:8-45 -/
def union_many_prog (dbg : Bool) (m : Mem) (sequences : List SSeq) (buf : List Nat) (out : Nat := 0) :
    Prog MScratch (Nat × List Nat) := do
  let its := sequences.map SSeq.begin
  let header ← .lift (min_id m its)
  let (q, buf) ← union_many_loop_prog dbg m (65537 + (its.map It.end_).sum) its header buf out
  return (q - out, buf)

/-! ## intersection -/

/-- uncompress_chunk_and_intersect.hpp:35-45 -/
def uncompress_sparse_chunk_and_intersect_prog (dbg : Bool) (m : Mem) (begin blocks : Nat) :
    Prog IScratch Nat := do
  .write (fun s => .ok { s with tmp := List.replicate s.tmp.length 0 })
  .write (fun s => (fun t => { s with tmp := t }) <$> uncompress_sparse_chunk dbg m begin blocks s.tmp 0)
  .update (fun s => (fun p => (p.1, { s with bitmap := p.2 })) <$>
    and_words_loop (vecWords s.tmp) chunk_size_in_64bit_words 0 0 s.bitmap)

/-- uncompress_chunk_and_intersect.hpp:104-119 -/
def uncompress_chunk_and_intersect_prog (dbg : Bool) (m : Mem) (it : It) (cardinality : Nat) :
    Prog IScratch Nat := do
  let t ← .lift (it.type m)
  if t = type_sparse then do
    let blocks ← .lift (it.blocks m)
    uncompress_sparse_chunk_and_intersect_prog dbg m it.data blocks
  else if t = type_dense then
    .update (fun s => (fun p => (p.1, { s with bitmap := p.2 })) <$>
      uncompress_dense_chunk_and_intersect m it.data s.bitmap)
  else if t = type_full then return cardinality
  else .lift (unreachable dbg)

/-- intersection_many.hpp:24-40 -/
def candidate_while_prog (m : Mem) : (fuel : Nat) → (its : List It) → (candidate i : Nat) →
    (num_headers : Nat) → Prog IScratch Nat
  | 0, _, _, _, _ => .lift (.error .diverge)
  | f + 1, its, candidate, i, num_headers =>
    if candidate < 65536 then do
      let (its, candidate, i) ← .lift (candidate_for m (its.length + 1) its candidate i)
      if i = its.length then do
        .write (fun s => (fun h => { s with headers := h }) <$> wr s.headers num_headers (u16 candidate))
        let it0 ← .lift (rdIt its 0)
        let it0 ← .lift (it0.next m)
        let its := its.set 0 it0
        let candidate ← .lift (it0.id m)
        candidate_while_prog m f its candidate 1 (num_headers + 1)
      else candidate_while_prog m f its candidate i num_headers
    else return num_headers

/-- intersection_many.hpp:61-67 -/
def intersect_rest_prog (dbg : Bool) (m : Mem) (header : Nat) :
    (n i : Nat) → (its : List It) → (cardinality : Nat) → Prog IScratch (Bool × List It)
  | 0, _, its, _ => return (false, its)
  | n + 1, i, its, cardinality => do
    let it ← .lift (rdIt its i)
    let it ← .lift (it.advance m header)
    let its := its.set i it
    let id ← .lift (it.id m)
    .lift (cassert dbg (id == header))
    let c ← uncompress_chunk_and_intersect_prog dbg m it cardinality
    let c := u32 c
    if c = 0 then return (true, its)
    else intersect_rest_prog dbg m header n (i + 1) its c

/-- intersection_many.hpp:48-70 -/
def intersect_headers_prog (dbg : Bool) (m : Mem) :
    (n i : Nat) → (its : List It) → (buf : List Nat) → (out : Nat) → Prog IScratch (Nat × List Nat)
  | 0, _, _, buf, out => return (out, buf)
  | n + 1, i, its, buf, out => do
    let header ← .read (fun s => rdv s.headers i)
    let base := u32 (header * 65536)
    let it0 ← .lift (rdIt its 0)
    let it0 ← .lift (it0.advance m header)
    let its := its.set 0 it0
    let id ← .lift (it0.id m)
    .lift (cassert dbg (id == header))
    let cardinality ← .update (fun s => (fun p => (p.1, { s with bitmap := p.2 })) <$>
      uncompress_chunk dbg m it0 s.bitmap 0)
    let (skip, its) ← intersect_rest_prog dbg m header (its.length - 1) 1 its (u32 cardinality)
    if skip then intersect_headers_prog dbg m n (i + 1) its buf out
    else do
      let (k, buf) ← .read (fun s => decode_bitmap (vecWords s.bitmap) 1024 base buf out)
      intersect_headers_prog dbg m n (i + 1) its buf (out + k)

/-- intersection_many.hpp:14-74 -/
def intersection_sorted_prog (dbg : Bool) (m : Mem) (sequences : List SSeq) (buf : List Nat)
    (out : Nat := 0) : Prog IScratch (Nat × List Nat) := do
  let its := sequences.map SSeq.begin
  let it0 ← .lift (rdIt its 0)
  let candidate ← .lift (it0.id m)
  let num_headers ← candidate_while_prog m ((it0.end_ + 1) * 65537) its candidate 1 0
  let (q, buf) ← intersect_headers_prog dbg m num_headers 0 its buf out
  return (q - out, buf)

/-- intersection_many.hpp:8-74 (the caller's vector is not part of the result here) -/
def intersection_prog (dbg : Bool) (sort : (SSeq → Nat) → List SSeq → List SSeq) (m : Mem)
    (sequences : List SSeq) (buf : List Nat) (out : Nat := 0) : Prog IScratch (Nat × List Nat) := do
  let keys ← .lift (sequences.mapM (fun q => do let c ← q.cardinality m; return (q, c)))
  let key := fun q => ((keys.find? (fun p => p.1 = q)).map Prod.snd).getD 0
  intersection_sorted_prog dbg m (sort key sequences) buf out

end Sliced
