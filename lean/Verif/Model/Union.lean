import Verif.Model.Intersection
/-! # union.hpp -/
namespace Sliced

/-- union.hpp:34-49, the merge loop; returns `l`, `r`, `size`, buffer. -/
def ss_union_block_loop (m : Mem) (end_l end_r base out : Nat) :
    (fuel : Nat) → (l r size : Nat) → (buf : List Nat) → Res (Nat × Nat × Nat × List Nat)
  | 0, _, _, _, _ => .error .diverge
  | f + 1, l, r, size, buf => do
    let x ← rd8 m l
    let y ← rd8 m r
    if x < y then do
      let buf ← wr buf (out + size) (u32 (x + base))
      if l + 1 = end_l then return (l + 1, r, size + 1, buf)
      else ss_union_block_loop m end_l end_r base out f (l + 1) r (size + 1) buf
    else if y < x then do
      let buf ← wr buf (out + size) (u32 (y + base))
      if r + 1 = end_r then return (l, r + 1, size + 1, buf)
      else ss_union_block_loop m end_l end_r base out f l (r + 1) (size + 1) buf
    else do
      let buf ← wr buf (out + size) (u32 (x + base))
      if l + 1 = end_l ∨ r + 1 = end_r then return (l + 1, r + 1, size + 1, buf)
      else ss_union_block_loop m end_l end_r base out f (l + 1) (r + 1) (size + 1) buf

/-- union.hpp:23-60.  Line 55 compares `r` with `end_l` (sic).  `end_l - l`, `end_r - r` are
non-negative there. -/
def ss_union_block (dbg : Bool) (m : Mem) (l r card_l card_r base : Nat) (buf : List Nat)
    (out : Nat) : Res (Nat × List Nat) := do
  cassert dbg (card_l > 0 && card_l ≤ 30)
  cassert dbg (card_r > 0 && card_r ≤ 30)
  let end_l := l + card_l
  let end_r := r + card_r
  let (l, r, size, buf) ← ss_union_block_loop m end_l end_r base out (card_l + card_r + 1) l r 0 buf
  let (size, buf) ←
    if l ≠ end_l then do
      let (n, buf) ← decode_sparse_block m l (end_l - l) base buf (out + size)
      pure (size + n, buf)
    else pure (size, buf)
  if r ≠ end_l then do
    let (n, buf) ← decode_sparse_block m r (end_r - r) base buf (out + size)
    return (size + n, buf)
  else return (size, buf)

/-- union.hpp:62-69; `x` is the static array of 4 words -/
def ds_union_block (m : Mem) (l r cardinality base : Nat) (x buf : List Nat) (out : Nat) :
    Res (Nat × List Nat × List Nat) := do
  let x ← memcpy_words (memWords m l) (block_size / 8 / 8) 0 x 0
  let x ← uncompress_sparse_block m r cardinality x 0
  let (n, buf) ← or_bitmaps (memWords m l) (vecWords x) block_size_in_64bit_words base buf out
  return (n, x, buf)

/-- union.hpp:71-78 (`type` is derived from the cardinality by the caller, lines 13-18) -/
def decode_block (m : Mem) (data type cardinality base : Nat) (buf : List Nat) (out : Nat) :
    Res (Nat × List Nat) :=
  if type = type_sparse then decode_sparse_block m data cardinality base buf out
  else decode_bitmap (memWords m data) block_size_in_64bit_words base buf out

/-- union.hpp:10-21 `DECODE(ptr)`: returns `out`, the buffer, `data_ptr`, `ptr` -/
def decode_macro (m : Mem) (base ptr data : Nat) (buf : List Nat) (out : Nat) :
    Res (Nat × List Nat × Nat × Nat) := do
  let id ← rd8 m ptr
  let c1 ← rd8 m (ptr + 1)
  let c := c1 + 1
  let (n, buf) ← decode_block m data (block_type c) c (u32 (base + id * 256)) buf out
  return (out + n, buf, data + bytes_by_cardinality c, ptr + 2)

/-- union.hpp:122-140, the switch over the block types; `x4` is the static array of
`ds_union_block`. -/
def union_blocks (dbg : Bool) (m : Mem) (data_l data_r cl cr b : Nat)
    (x4 buf : List Nat) (out : Nat) : Res (Nat × List Nat × List Nat) :=
  let k := block_pair (block_type cl) (block_type cr)
  let keep := fun (p : Nat × List Nat) => (p.1, x4, p.2)
  if k = block_pair type_sparse type_sparse then
    keep <$> ss_union_block dbg m data_l data_r cl cr b buf out
  else if k = block_pair type_sparse type_dense then
    ds_union_block m data_r data_l cl b x4 buf out
  else if k = block_pair type_dense type_sparse then
    ds_union_block m data_l data_r cr b x4 buf out
  else if k = block_pair type_dense type_dense then
    keep <$> or_bitmaps (memWords m data_l) (memWords m data_r) block_size_in_64bit_words b buf out
  else unreachable dbg

/-- State of the loops of `ss_union_chunk`. -/
structure UState where
  l : Nat
  data_l : Nat
  r : Nat
  data_r : Nat
  out : Nat
  x4 : List Nat
  buf : List Nat

/-- union.hpp:91-150, the merge loop -/
def ss_union_chunk_loop (dbg : Bool) (m : Mem) (end_l end_r base : Nat) :
    (fuel : Nat) → UState → Res UState
  | 0, _ => .error .diverge
  | f + 1, s => do
    let x ← rd8 m s.l
    let y ← rd8 m s.r
    if x < y then do
      let (out, buf, data_l, l) ← decode_macro m base s.l s.data_l s.buf s.out
      let s := { s with l := l, data_l := data_l, out := out, buf := buf }
      if s.l = end_l then return s else ss_union_chunk_loop dbg m end_l end_r base f s
    else if x > y then do
      let (out, buf, data_r, r) ← decode_macro m base s.r s.data_r s.buf s.out
      let s := { s with r := r, data_r := data_r, out := out, buf := buf }
      if s.r = end_r then return s else ss_union_chunk_loop dbg m end_l end_r base f s
    else do
      let id := x
      let cl1 ← rd8 m (s.l + 1)
      let cr1 ← rd8 m (s.r + 1)
      let cl := cl1 + 1
      let cr := cr1 + 1
      let b := u32 (base + id * 256)
      let (n, x4, buf) ← union_blocks dbg m s.data_l s.data_r cl cr b s.x4 s.buf s.out
      let s := { l := s.l + 2, data_l := s.data_l + bytes_by_cardinality cl,
                 r := s.r + 2, data_r := s.data_r + bytes_by_cardinality cr,
                 out := s.out + n, x4 := x4, buf := buf }
      if s.l = end_l ∨ s.r = end_r then return s
      else ss_union_chunk_loop dbg m end_l end_r base f s

/-- union.hpp:152 / 153, `while (ptr != end) { DECODE(ptr) }` -/
def decode_rest (m : Mem) (end_ base : Nat) : (fuel : Nat) → (ptr data : Nat) → (buf : List Nat) →
    (out : Nat) → Res (Nat × List Nat)
  | 0, _, _, _, _ => .error .diverge
  | f + 1, ptr, data, buf, out =>
    if ptr ≠ end_ then do
      let (out, buf, data, ptr) ← decode_macro m base ptr data buf out
      decode_rest m end_ base f ptr data buf out
    else .ok (out, buf)

/-- union.hpp:80-156 -/
def ss_union_chunk (dbg : Bool) (m : Mem) (l r blocks_l blocks_r base : Nat) (x4 buf : List Nat)
    (out : Nat) : Res (Nat × List Nat × List Nat) := do
  cassert dbg (blocks_l ≥ 1 && blocks_l ≤ 256)
  cassert dbg (blocks_r ≥ 1 && blocks_r ≤ 256)
  let end_l := l + blocks_l * 2
  let end_r := r + blocks_r * 2
  let s ← ss_union_chunk_loop dbg m end_l end_r base (blocks_l + blocks_r + 1)
    { l := l, data_l := end_l, r := r, data_r := end_r, out := out, x4 := x4, buf := buf }
  let (o, buf) ← decode_rest m end_l base (blocks_l + 1) s.l s.data_l s.buf s.out
  let (o, buf) ← decode_rest m end_r base (blocks_r + 1) s.r s.data_r buf o
  return (o - out, s.x4, buf)

/-- union.hpp:158-165; `x` is the static scratch vector -/
def ds_union_chunk (dbg : Bool) (m : Mem) (l r blocks_r base : Nat) (x buf : List Nat)
    (out : Nat) : Res (Nat × List Nat × List Nat) := do
  let x := List.replicate x.length 0
  let x ← uncompress_sparse_chunk dbg m r blocks_r x 0
  let (n, buf) ← or_bitmaps (memWords m l) (vecWords x) chunk_size_in_64bit_words base buf out
  return (n, x, buf)

/-- The function-local statics used by `pairwise_union`. -/
structure UScratch where
  /-- union.hpp:64 -/
  x4 : List Nat
  /-- union.hpp:160 -/
  x : List Nat

/-- union.hpp:177-228, the switch over the chunk types -/
def union_chunks (dbg : Bool) (m : Mem) (it_l it_r : It) (base : Nat) (s : UScratch)
    (buf : List Nat) (out : Nat) : Res (Nat × UScratch × List Nat) := do
  let type_l ← it_l.type m
  let type_r ← it_r.type m
  let k := chunk_pair type_l type_r
  let full := (fun (p : Nat × List Nat) => (p.1, s, p.2)) <$> decode_full_chunk base buf out
  let big := fun (p : Nat × List Nat × List Nat) => (p.1, { s with x := p.2.1 }, p.2.2)
  let small := fun (p : Nat × List Nat × List Nat) => (p.1, { s with x4 := p.2.1 }, p.2.2)
  if k = chunk_pair type_sparse type_sparse then do
    let blocks_l ← it_l.blocks m
    let blocks_r ← it_r.blocks m
    if blocks_l < blocks_r then
      small <$> ss_union_chunk dbg m it_l.data it_r.data blocks_l blocks_r base s.x4 buf out
    else
      small <$> ss_union_chunk dbg m it_r.data it_l.data blocks_r blocks_l base s.x4 buf out
  else if k = chunk_pair type_sparse type_dense then do
    let blocks_l ← it_l.blocks m
    big <$> ds_union_chunk dbg m it_r.data it_l.data blocks_l base s.x buf out
  else if k = chunk_pair type_sparse type_full then full
  else if k = chunk_pair type_dense type_sparse then do
    let blocks_r ← it_r.blocks m
    big <$> ds_union_chunk dbg m it_l.data it_r.data blocks_r base s.x buf out
  else if k = chunk_pair type_dense type_dense then
    (fun (p : Nat × List Nat) => (p.1, s, p.2)) <$>
      or_bitmaps (memWords m it_l.data) (memWords m it_r.data) chunk_size_in_64bit_words base buf out
  else if k = chunk_pair type_dense type_full then full
  else if k = chunk_pair type_full type_sparse then full
  else if k = chunk_pair type_full type_dense then full
  else if k = chunk_pair type_full type_full then full
  else unreachable dbg

/-- union.hpp:172-245, the merge loop; returns the iterators, `out`, scratch, buffer -/
def pairwise_union_loop (dbg : Bool) (m : Mem) :
    (fuel : Nat) → (it_l it_r : It) → (s : UScratch) → (buf : List Nat) → (out : Nat) →
    Res (It × It × Nat × UScratch × List Nat)
  | 0, _, _, _, _, _ => .error .diverge
  | f + 1, it_l, it_r, s, buf, out => do
    let i_l ← it_l.id m
    let i_r ← it_r.id m
    let id_l := u16 i_l
    let id_r := u16 i_r
    if id_l = id_r then do
      let base := u32 (id_l * 65536)
      let (n, s, buf) ← union_chunks dbg m it_l it_r base s buf out
      let it_l ← it_l.next m
      let it_r ← it_r.next m
      if !it_l.has_next || !it_r.has_next then return (it_l, it_r, out + n, s, buf)
      else pairwise_union_loop dbg m f it_l it_r s buf (out + n)
    else if id_l < id_r then do
      let (n, buf) ← decode_chunk dbg m it_l buf out
      let it_l ← it_l.next m
      if !it_l.has_next then return (it_l, it_r, out + n, s, buf)
      else pairwise_union_loop dbg m f it_l it_r s buf (out + n)
    else do
      let (n, buf) ← decode_chunk dbg m it_r buf out
      let it_r ← it_r.next m
      if !it_r.has_next then return (it_l, it_r, out + n, s, buf)
      else pairwise_union_loop dbg m f it_l it_r s buf (out + n)

/-- union.hpp:247-250 / 252-255, `while (it.has_next()) { out += decode_chunk(it, out); it.next(); }` -/
def decode_tail (dbg : Bool) (m : Mem) : (fuel : Nat) → It → (buf : List Nat) → (out : Nat) →
    Res (Nat × List Nat)
  | 0, _, _, _ => .error .diverge
  | f + 1, it, buf, out =>
    if it.has_next then do
      let (n, buf) ← decode_chunk dbg m it buf out
      let it ← it.next m
      decode_tail dbg m f it buf (out + n)
    else .ok (out, buf)

/-- union.hpp:167-258; returns the size, the scratch buffers and the output buffer -/
def pairwise_union (dbg : Bool) (m : Mem) (l r : SSeq) (s : UScratch) (buf : List Nat)
    (out : Nat := 0) : Res (Nat × UScratch × List Nat) := do
  let (it_l, it_r, o, s, buf) ← pairwise_union_loop dbg m (l.chunks + r.chunks + 1) l.begin r.begin
    s buf out
  let (o, buf) ← decode_tail dbg m (l.chunks + 1) it_l buf o
  let (o, buf) ← decode_tail dbg m (r.chunks + 1) it_r buf o
  return (o - out, s, buf)

end Sliced
