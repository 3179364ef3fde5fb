import Verif.Model.Decode
import Verif.Model.Uncompress
/-!
# intersection.hpp

`table.hpp` (the array `shuffle_mask`) is not part of the repository; the table is a parameter
`tab : Nat → List Nat` (row number ↦ 16 shuffle control bytes).
-/
namespace Sliced

/-- `_mm_cmpestrm(a, la, b, lb, UBYTE | CMP_EQUAL_ANY | BIT_MASK)`: bit `j` of the result is set iff
lane `j` of `b` is valid (`j < lb`) and equals some valid lane `i < la` of `a`.  Lengths above 16
saturate, because a register has only 16 lanes. -/
def cmpestrm (a : List Nat) (la : Nat) (b : List Nat) (lb : Nat) : Nat :=
  (List.range 16).foldl
    (fun mask j =>
      if j < lb ∧ ((b[j]?).any fun y => (a.take la).contains y) then mask ||| 2 ^ j else mask) 0

/-- `_mm_shuffle_epi8`: a control byte with the top bit set gives 0, otherwise its low four bits
select the lane. -/
def pshufb (v ctl : List Nat) : List Nat :=
  ctl.map (fun c => if c ≥ 128 then 0 else v.getD (c % 16) 0)

/-- intersection.hpp:21-38 `INTERSECT`; `out` is the output index, returns the new `size` and
buffer. -/
def intersect_step (tab : Nat → List Nat) (v_l : List Nat) (card_l : Nat) (v_r : List Nat)
    (card_r : Nat) (base : Nat) (size : Nat) (buf : List Nat) (out : Nat) :
    Res (Nat × List Nat) := do
  let mask := cmpestrm v_l card_l v_r card_r
  let matched := popcount mask
  let size := size + matched
  let p := pshufb v_r (tab mask)
  let buf ← storeu buf out (cvtAdd base p)
  if matched > 8 then do
    -- `_mm_bsrli_si128(p, 8)`
    let p := p.drop 8 ++ List.replicate 8 0
    let buf ← storeu buf (out + 8) (cvtAdd base p)
    return (size, buf)
  else return (size, buf)

/-- intersection.hpp:72-74, `while (*l < *r) if (++l == end_l) return size`; the result is `none`
when the function returns, otherwise the new `l`. -/
def scalar_skip_l (m : Mem) (end_l r : Nat) : (fuel : Nat) → (l : Nat) → Res (Option Nat)
  | 0, _ => .error .diverge
  | f + 1, l => do
    let x ← rd8 m l
    let y ← rd8 m r
    if x < y then
      if l + 1 = end_l then return none
      else scalar_skip_l m end_l r f (l + 1)
    else return some l

/-- intersection.hpp:75-77, `while (*l > *r) if (++r == end_r) return size` -/
def scalar_skip_r (m : Mem) (end_r l : Nat) : (fuel : Nat) → (r : Nat) → Res (Option Nat)
  | 0, _ => .error .diverge
  | f + 1, r => do
    let x ← rd8 m l
    let y ← rd8 m r
    if x > y then
      if r + 1 = end_r then return none
      else scalar_skip_r m end_r l f (r + 1)
    else return some r

/-- intersection.hpp:71-82, the scalar loop -/
def scalar_loop (m : Mem) (end_l end_r base out : Nat) :
    (fuel : Nat) → (l r size : Nat) → (buf : List Nat) → Res (Nat × List Nat)
  | 0, _, _, _, _ => .error .diverge
  | f + 1, l, r, size, buf => do
    match ← scalar_skip_l m end_l r (end_l - l + 1) l with
    | none => return (size, buf)
    | some l =>
      match ← scalar_skip_r m end_r l (end_r - r + 1) r with
      | none => return (size, buf)
      | some r => do
        let x ← rd8 m l
        let y ← rd8 m r
        if x = y then do
          let buf ← wr buf (out + size) (u32 (x + base))
          let size := size + 1
          if l + 1 = end_l then return (size, buf)
          else if r + 1 = end_r then return (size, buf)
          else scalar_loop m end_l end_r base out f (l + 1) (r + 1) size buf
        else scalar_loop m end_l end_r base out f l r size buf

/-- intersection.hpp:46-85 -/
def ss_intersect_block (dbg : Bool) (tab : Nat → List Nat) (m : Mem) (l r card_l card_r base : Nat)
    (buf : List Nat) (out : Nat) : Res (Nat × List Nat) := do
  cassert dbg (card_l > 0 && card_l ≤ 30)
  cassert dbg (card_r > 0 && card_r ≤ 30)
  if card_l ≤ 16 ∧ card_r ≤ 16 then do
    let v_l ← lddqu m l
    let v_r ← lddqu m r
    intersect_step tab v_l card_l v_r card_r base 0 buf out
  else if card_l ≤ 16 ∧ card_r > 16 then do
    let v_l ← lddqu m l
    let v_r ← lddqu m r
    let (size, buf) ← intersect_step tab v_l card_l v_r card_r base 0 buf out
    let v_r ← lddqu m (r + 16)
    intersect_step tab v_l card_l v_r (card_r - 16) base size buf (out + size)
  else if card_r ≤ 16 ∧ card_l > 16 then do
    let v_l ← lddqu m l
    let v_r ← lddqu m r
    let (size, buf) ← intersect_step tab v_l card_l v_r card_r base 0 buf out
    let v_l ← lddqu m (l + 16)
    intersect_step tab v_l (card_l - 16) v_r card_r base size buf (out + size)
  else
    scalar_loop m (l + card_l) (r + card_r) base out (card_l + card_r + 1) l r 0 buf

/-- intersection.hpp:96-100 (`n` keys left) -/
def ds_intersect_block_loop (m : Mem) (l r base out : Nat) :
    (n i k : Nat) → (buf : List Nat) → Res (Nat × List Nat)
  | 0, _, k, buf => .ok (k, buf)
  | n + 1, i, k, buf => do
    let key ← rd8 m (r + i)
    let buf ← wr buf (out + k) (u32 (key + base))
    let b ← bitmap_contains (memWords m l) key
    ds_intersect_block_loop m l r base out n (i + 1) (k + (if b then 1 else 0)) buf

/-- intersection.hpp:92-102 -/
def ds_intersect_block (m : Mem) (l r card base : Nat) (buf : List Nat) (out : Nat) :
    Res (Nat × List Nat) :=
  ds_intersect_block_loop m l r base out card 0 0 buf

/-- intersection.hpp:115-120 and 121-126: `while (*p < *q) { if (p + 2 == end) return; data +=
BYTES; p += 2 }` (for 121-126 the roles of `l` and `r` are exchanged).  `none`: returned. -/
def skip_lower_blocks (m : Mem) (end_p q : Nat) : (fuel : Nat) → (p data : Nat) →
    Res (Option (Nat × Nat))
  | 0, _, _ => .error .diverge
  | f + 1, p, data => do
    let x ← rd8 m p
    let y ← rd8 m q
    if x < y then
      if p + 2 = end_p then return none
      else do
        let c1 ← rd8 m (p + 1)
        skip_lower_blocks m end_p q f (p + 2) (data + bytes_by_cardinality (c1 + 1))
    else return some (p, data)

/-- block type of a cardinality, intersection.hpp:133-146 / union.hpp:104-117 -/
def block_type (c : Nat) : Nat := if c < 31 then type_sparse else type_dense

/-- intersection.hpp:151-169, the switch over the block types -/
def intersect_blocks (dbg : Bool) (tab : Nat → List Nat) (m : Mem) (data_l data_r cl cr b : Nat)
    (buf : List Nat) (tmp : Nat) : Res (Nat × List Nat) :=
  let k := block_pair (block_type cl) (block_type cr)
  if k = block_pair type_sparse type_sparse then
    ss_intersect_block dbg tab m data_l data_r cl cr b buf tmp
  else if k = block_pair type_sparse type_dense then
    ds_intersect_block m data_r data_l cl b buf tmp
  else if k = block_pair type_dense type_sparse then
    ds_intersect_block m data_l data_r cr b buf tmp
  else if k = block_pair type_dense type_dense then
    and_bitmaps (memWords m data_l) (memWords m data_r) block_size_in_64bit_words b buf tmp
  else unreachable dbg

/-- intersection.hpp:114-180, the main loop; returns `tmp` and the buffer -/
def ss_intersect_chunk_loop (dbg : Bool) (tab : Nat → List Nat) (m : Mem) (end_l end_r base : Nat) :
    (fuel : Nat) → (l data_l r data_r : Nat) → (buf : List Nat) → (tmp : Nat) → Res (Nat × List Nat)
  | 0, _, _, _, _, _, _ => .error .diverge
  | f + 1, l, data_l, r, data_r, buf, tmp => do
    match ← skip_lower_blocks m end_l r (end_l - l + 1) l data_l with
    | none => return (tmp, buf)
    | some (l, data_l) =>
      match ← skip_lower_blocks m end_r l (end_r - r + 1) r data_r with
      | none => return (tmp, buf)
      | some (r, data_r) => do
        let x ← rd8 m l
        let y ← rd8 m r
        if x = y then do
          let id := x
          let cl1 ← rd8 m (l + 1)
          let cr1 ← rd8 m (r + 1)
          let cl := cl1 + 1
          let cr := cr1 + 1
          let b := u32 (base + id * 256)
          let (n, buf) ← intersect_blocks dbg tab m data_l data_r cl cr b buf tmp
          let tmp := tmp + n
          if l + 2 = end_l ∨ r + 2 = end_r then return (tmp, buf)
          else
            ss_intersect_chunk_loop dbg tab m end_l end_r base f
              (l + 2) (data_l + bytes_by_cardinality cl)
              (r + 2) (data_r + bytes_by_cardinality cr) buf tmp
        else ss_intersect_chunk_loop dbg tab m end_l end_r base f l data_l r data_r buf tmp

/-- intersection.hpp:104-183 -/
def ss_intersect_chunk (dbg : Bool) (tab : Nat → List Nat) (m : Mem)
    (l r blocks_l blocks_r base : Nat) (buf : List Nat) (out : Nat) : Res (Nat × List Nat) := do
  cassert dbg (blocks_l ≥ 1 && blocks_l ≤ 256)
  cassert dbg (blocks_r ≥ 1 && blocks_r ≤ 256)
  let data_l := l + blocks_l * 2
  let data_r := r + blocks_r * 2
  let (tmp, buf) ← ss_intersect_chunk_loop dbg tab m data_l data_r base (blocks_l + blocks_r + 1)
    l data_l r data_r buf out
  return (tmp - out, buf)

/-- intersection.hpp:185-192; `x` is the static scratch vector. -/
def ds_intersect_chunk (dbg : Bool) (m : Mem) (l r blocks_r base : Nat) (x : List Nat)
    (buf : List Nat) (out : Nat) : Res (Nat × List Nat × List Nat) := do
  let x := List.replicate x.length 0
  let x ← uncompress_sparse_chunk dbg m r blocks_r x 0
  let (n, buf) ← and_bitmaps (memWords m l) (vecWords x) chunk_size_in_64bit_words base buf out
  return (n, x, buf)

/-- intersection.hpp:204-261, the switch over the chunk types; returns `n`, the scratch vector and
the buffer. -/
def intersect_chunks (dbg : Bool) (tab : Nat → List Nat) (m : Mem) (it_l it_r : It) (base : Nat)
    (x : List Nat) (buf : List Nat) (out : Nat) : Res (Nat × List Nat × List Nat) := do
  let type_l ← it_l.type m
  let type_r ← it_r.type m
  let k := chunk_pair type_l type_r
  let keep := fun (p : Nat × List Nat) => (p.1, x, p.2)
  if k = chunk_pair type_sparse type_sparse then do
    let blocks_l ← it_l.blocks m
    let blocks_r ← it_r.blocks m
    if blocks_l < blocks_r then
      keep <$> ss_intersect_chunk dbg tab m it_l.data it_r.data blocks_l blocks_r base buf out
    else
      keep <$> ss_intersect_chunk dbg tab m it_r.data it_l.data blocks_r blocks_l base buf out
  else if k = chunk_pair type_sparse type_dense then do
    let blocks_l ← it_l.blocks m
    ds_intersect_chunk dbg m it_r.data it_l.data blocks_l base x buf out
  else if k = chunk_pair type_sparse type_full then do
    let blocks_l ← it_l.blocks m
    keep <$> decode_sparse_chunk dbg m it_l.data blocks_l base buf out
  else if k = chunk_pair type_dense type_sparse then do
    let blocks_r ← it_r.blocks m
    ds_intersect_chunk dbg m it_l.data it_r.data blocks_r base x buf out
  else if k = chunk_pair type_dense type_dense then
    keep <$> and_bitmaps (memWords m it_l.data) (memWords m it_r.data) chunk_size_in_64bit_words base
      buf out
  else if k = chunk_pair type_dense type_full then
    keep <$> decode_bitmap (memWords m it_l.data) chunk_size_in_64bit_words base buf out
  else if k = chunk_pair type_full type_sparse then do
    let blocks_r ← it_r.blocks m
    keep <$> decode_sparse_chunk dbg m it_r.data blocks_r base buf out
  else if k = chunk_pair type_full type_dense then
    keep <$> decode_bitmap (memWords m it_r.data) chunk_size_in_64bit_words base buf out
  else if k = chunk_pair type_full type_full then
    keep <$> decode_full_chunk base buf out
  else unreachable dbg

/-- intersection.hpp:199-272 -/
def pairwise_intersection_loop (dbg : Bool) (tab : Nat → List Nat) (m : Mem) :
    (fuel : Nat) → (it_l it_r : It) → (x buf : List Nat) → (out : Nat) →
    Res (Nat × List Nat × List Nat)
  | 0, _, _, _, _, _ => .error .diverge
  | f + 1, it_l, it_r, x, buf, out =>
    if it_l.has_next && it_r.has_next then do
      let i_l ← it_l.id m
      let i_r ← it_r.id m
      let id_l := u16 i_l
      let id_r := u16 i_r
      if id_l = id_r then do
        let base := u32 (id_l * 65536)
        let (n, x, buf) ← intersect_chunks dbg tab m it_l it_r base x buf out
        let it_l ← it_l.next m
        let it_r ← it_r.next m
        pairwise_intersection_loop dbg tab m f it_l it_r x buf (out + n)
      else if id_l < id_r then do
        let it_l ← it_l.advance m id_r
        pairwise_intersection_loop dbg tab m f it_l it_r x buf out
      else do
        let it_r ← it_r.advance m id_l
        pairwise_intersection_loop dbg tab m f it_l it_r x buf out
    else .ok (out, x, buf)

/-- intersection.hpp:194-274; returns the size, the scratch vector and the buffer -/
def pairwise_intersection (dbg : Bool) (tab : Nat → List Nat) (m : Mem) (l r : SSeq)
    (x buf : List Nat) (out : Nat := 0) : Res (Nat × List Nat × List Nat) := do
  let (q, x, buf) ← pairwise_intersection_loop dbg tab m (l.chunks + r.chunks + 1) l.begin r.begin
    x buf out
  return (q - out, x, buf)

end Sliced
