import Verif.Model.Sequence
/-! # next_geq.hpp -/
namespace Sliced

/-- next_geq.hpp:37-43 (`n` elements left, next index `i`) -/
def next_geq_sparse_block_loop (m : Mem) (begin value : Nat) : (n i : Nat) → Res Nat
  | 0, _ => .ok not_found
  | n + 1, i => do
    let x ← rd8 m (begin + i)
    if x ≥ value then return x
    else next_geq_sparse_block_loop m begin value n (i + 1)

/-- next_geq.hpp:37-43 -/
def next_geq_sparse_block (m : Mem) (begin cardinality value : Nat) : Res Nat :=
  next_geq_sparse_block_loop m begin value cardinality 0

/-- next_geq.hpp:47-53: word `i = n - 1` is inspected next, downwards -/
def max_value_in_bitmap_loop (b : Words) : (n : Nat) → Res Nat
  | 0 => .ok 0
  | n + 1 => do
    let w ← b n
    if w ≠ 0 then do
      let r ← clz w
      return n * 64 + 63 - r
    else max_value_in_bitmap_loop b n

/-- next_geq.hpp:45-55 -/
def max_value_in_bitmap (b : Words) (nwords : Nat) : Res Nat := max_value_in_bitmap_loop b nwords

/-- next_geq.hpp:59-63 (`n` words left, next word `i`) -/
def min_value_in_bitmap_loop (b : Words) : (n i : Nat) → Res Nat
  | 0, _ => .ok 0
  | n + 1, i => do
    let w ← b i
    if w ≠ 0 then do
      let r ← ctz w
      return u32 (i * 64 + r)
    else min_value_in_bitmap_loop b n (i + 1)

/-- next_geq.hpp:57-64 -/
def min_value_in_bitmap (b : Words) (nwords : Nat) : Res Nat := min_value_in_bitmap_loop b nwords 0

/-- next_geq.hpp:73-77: the `while (word == 0)` loop of `next_geq_bitmap` -/
def next_geq_bitmap_loop (b : Words) (nwords : Nat) : (fuel : Nat) → (k word : Nat) → Res Nat
  | 0, _, _ => .error .diverge
  | f + 1, k, word =>
    if word = 0 then
      let k := k + 1
      if k = nwords then .ok not_found
      else do
        let word ← b k
        next_geq_bitmap_loop b nwords f k word
    else do
      let r ← ctz word
      return u32 (k * 64 + r)

/-- next_geq.hpp:66-79 -/
def next_geq_bitmap (b : Words) (nwords value : Nat) : Res Nat := do
  let k := value / 64
  let word ← b k
  let diff := value - k * 64
  let word := u64 ((word >>> diff) <<< diff)
  next_geq_bitmap_loop b nwords (nwords + 1) k word

/-- next_geq.hpp:81-87 -/
def max_value_in_block (m : Mem) (begin data : Nat) : Res Nat := do
  let c ← rd8 m (begin + 1)
  if c < 30 then rd8 m (data + c)
  else max_value_in_bitmap (memWords m data) block_size_in_64bit_words

/-- next_geq.hpp:5-8 `BLOCK_MIN` (and 10-17 `BLOCK_MIN_`) -/
def block_min (m : Mem) (begin data base : Nat) : Res Nat := do
  let c ← rd8 m (begin + 1)
  if c < 30 then do
    let x ← rd8 m data
    return u32 (x + base)
  else do
    let x ← min_value_in_bitmap (memWords m data) block_size_in_64bit_words
    return u32 (x + base)

/-- next_geq.hpp:97-102: skip the blocks whose id is below `block_id`; returns `begin, data, id`.
Note that `*begin` is read once more after the last header. -/
def skip_blocks (m : Mem) (block_id end_ : Nat) :
    (fuel : Nat) → (begin data id : Nat) → Res (Nat × Nat × Nat)
  | 0, _, _, _ => .error .diverge
  | f + 1, begin, data, id =>
    if id < block_id ∧ begin ≠ end_ then do
      let c1 ← rd8 m (begin + 1)
      let data := data + bytes_by_cardinality (c1 + 1)
      let begin := begin + 2
      let id ← rd8 m begin
      skip_blocks m block_id end_ f begin data id
    else .ok (begin, data, id)

/-- next_geq.hpp:89-132 -/
def next_geq_sparse_chunk (dbg : Bool) (m : Mem) (begin blocks value : Nat) : Res Nat := do
  cassert dbg (blocks ≥ 1 && blocks ≤ 256)
  let data := begin + blocks * 2
  let end_ := data
  let block_id := value / 256
  let id ← rd8 m begin
  let (begin, data, id) ← skip_blocks m block_id end_ (blocks + 1) begin data id
  if begin ≠ end_ then do
    let base := id * 256
    if base ≥ value then block_min m begin data base
    else do
      let value := value % 256
      let mx ← max_value_in_block m begin data
      if value > mx then
        if begin + 2 = end_ then return not_found
        else do
          let c1 ← rd8 m (begin + 1)
          let data := data + bytes_by_cardinality (c1 + 1)
          let begin := begin + 2
          let id ← rd8 m begin
          block_min m begin data (id * 256)
      else do
        let base := id * 256
        let c1 ← rd8 m (begin + 1)
        let c := c1 + 1
        if c < 31 then do
          let x ← next_geq_sparse_block m data c value
          return u32 (x + base)
        else do
          let x ← next_geq_bitmap (memWords m data) block_size_in_64bit_words value
          return u32 (x + base)
  else return not_found

/-- next_geq.hpp:134-140 -/
def min_value_in_sparse_chunk (dbg : Bool) (m : Mem) (begin blocks : Nat) : Res Nat := do
  cassert dbg (blocks ≥ 1 && blocks ≤ 256)
  let data := begin + blocks * 2
  let id ← rd8 m begin
  block_min m begin data (id * 256)

/-- next_geq.hpp:19-35 `CHUNK_MIN(it)` -/
def chunk_min (dbg : Bool) (m : Mem) (it : It) : Res Nat := do
  let t ← it.type m
  let value ←
    if t = type_sparse then do
      let blocks ← it.blocks m
      min_value_in_sparse_chunk dbg m it.data blocks
    else if t = type_dense then min_value_in_bitmap (memWords m it.data) chunk_size_in_64bit_words
    else if t = type_full then pure 0
    else unreachable dbg
  let b ← it.base m
  return u32 (value + b)

/-- next_geq.hpp:142-176 `s_sequence::next_geq` -/
def SSeq.next_geq (dbg : Bool) (m : Mem) (s : SSeq) (value : Nat) : Res Nat := do
  let chunk_id := value / 65536
  let it ← s.begin.skip_to_value m chunk_id
  let b ← it.base m
  if b ≥ value then chunk_min dbg m it
  else if it.has_next then do
    let value := value % 65536
    let t ← it.type m
    let value ←
      if t = type_sparse then do
        let blocks ← it.blocks m
        next_geq_sparse_chunk dbg m it.data blocks value
      else if t = type_dense then
        next_geq_bitmap (memWords m it.data) chunk_size_in_64bit_words value
      else if t = type_full then pure value
      else unreachable dbg
    if value ≠ not_found then return u32 (value + b)
    else do
      let it ← it.next m
      if it.has_next then chunk_min dbg m it
      else return not_found
  else return not_found

end Sliced
