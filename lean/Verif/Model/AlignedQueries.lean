import Verif.Model.Aligned
import Verif.Model.Contains
import Verif.Model.Select
import Verif.Model.NextGeq
import Verif.Model.Uncompress
import Verif.Model.Enumerator
/-!
# The queries with the alignment rule of C++

As Model/Aligned.lean does for `decode`: `cardinality`, `contains`, `select`, `next_geq`, `uncompress` and
the enumerator once more, with loads that check that the address of a 16-bit, 32-bit or 64-bit word is a
multiple of its size.  The functions are the ones of Model/{Sequence,Contains,Select,NextGeq,Uncompress,
Enumerator}.lean with `rd16`, `rd32`, `memWords` replaced by `rd16a`, `rd32a`, `memWordsA`; functions that
only read bytes (or are given a bitmap) are used as they are.  Only loads are checked: forming a misaligned
pointer without reading through it is not counted as undefined.
-/
namespace Sliced

/-- `*p` for `uint32_t const* p` -/
def rd32a (m : Mem) (a : Nat) : Res Nat := if a % 4 = 0 then rd32 m a else .error .ub

/-! ## s_sequence.hpp -/

/-- s_sequence.hpp:48-51, the loop of `cardinality` (`n` chunks left) -/
def cardinality_loopA (m : Mem) : (n h c : Nat) → Res Nat
  | 0, _, c => .ok c
  | n + 1, h, c => do
    let x ← rd16a m (h + 2)
    cardinality_loopA m n (h + 8) (u32 (c + (x + 1)))

/-- s_sequence.hpp:45-53 (and `size()`, lines 55-57) -/
def SSeq.cardinalityA (m : Mem) (s : SSeq) : Res Nat := cardinality_loopA m s.chunks s.header 0

/-- s_sequence.hpp:79-81; the shift is in `uint32_t`, so a saturated id gives 0 -/
def It.baseA (m : Mem) (it : It) : Res Nat := do
  let i ← it.idA m
  return u32 (i * 65536)

/-- s_sequence.hpp:83-85 -/
def It.cardinalityA (m : Mem) (it : It) : Res Nat := do
  let x ← rd16a m (it.header + 2)
  return x + 1

/-- s_sequence.hpp:109-111 `advance`; `id() < lower_bound` is evaluated first. -/
def It.advance_loopA (m : Mem) (lower_bound : Nat) : (fuel : Nat) → It → Res It
  | 0, _ => .error .diverge
  | f + 1, it => do
    let i ← it.idA m
    if i < lower_bound && it.has_next then do
      let it ← it.nextA m
      It.advance_loopA m lower_bound f it
    else return it

/-- s_sequence.hpp:109-111 -/
def It.advanceA (m : Mem) (it : It) (lower_bound : Nat) : Res It :=
  It.advance_loopA m lower_bound (it.end_ - it.begin_ + 1) it

/-- s_sequence.hpp:115-118 / 129-132: jump over a group of chunks using the current pointer -/
def It.jumpA (m : Mem) (it : It) : Res It := do
  let o ← rd32a m (it.pointers + 4)
  return { it with
    data := it.data + o
    pointers := it.pointers + 8
    header := it.skip_header
    begin_ := it.skip_position }

/-- s_sequence.hpp:113-121, the jump loop of `skip_to_value` -/
def It.skip_value_loopA (m : Mem) (lower_bound : Nat) : (fuel : Nat) → It → Res It
  | 0, _ => .error .diverge
  | f + 1, it =>
    if it.skip_position < it.end_ then do
      let h ← rd16a m it.skip_header
      if h ≤ lower_bound then do
        let it ← it.jumpA m
        It.skip_value_loopA m lower_bound f it
      else return it
    else return it

/-- s_sequence.hpp:113-121 -/
def It.skip_to_valueA (m : Mem) (it : It) (lower_bound : Nat) : Res It := do
  let it ← It.skip_value_loopA m lower_bound (it.end_ - it.begin_ + 1) it
  it.advanceA m lower_bound

/-- s_sequence.hpp:125-133, the jump loop of `skip_to_position` -/
def It.skip_position_loopA (m : Mem) (rank : Nat) : (fuel : Nat) → It → Nat → Res (It × Nat)
  | 0, _, _ => .error .diverge
  | f + 1, it, elements =>
    if it.skip_position < it.end_ then do
      let c ← rd32a m it.pointers
      if u32 (elements + c) > rank then return (it, elements)
      else do
        let it ← it.jumpA m
        It.skip_position_loopA m rank f it (u32 (elements + c))
    else return (it, elements)

/-- s_sequence.hpp:135-140, the chunk loop of `skip_to_position` -/
def It.advance_position_loopA (m : Mem) (rank : Nat) : (fuel : Nat) → It → Nat → Res (It × Nat)
  | 0, _, _ => .error .diverge
  | f + 1, it, elements =>
    if it.has_next then do
      let c ← it.cardinalityA m
      if u32 (elements + c) > rank then return (it, elements)
      else do
        let it ← it.nextA m
        It.advance_position_loopA m rank f it (u32 (elements + c))
    else return (it, elements)

/-- s_sequence.hpp:123-143; returns the moved iterator and `elements` -/
def It.skip_to_positionA (m : Mem) (it : It) (rank : Nat) : Res (It × Nat) := do
  let (it, elements) ← It.skip_position_loopA m rank (it.end_ - it.begin_ + 1) it 0
  It.advance_position_loopA m rank (it.end_ - it.begin_ + 1) it elements

/-! ## contains.hpp -/

/-- contains.hpp:29-52, the loop of `contains_sparse_chunk` -/
def contains_sparse_chunk_loopA (dbg : Bool) (m : Mem) (value end_ : Nat) :
    (fuel : Nat) → (begin data : Nat) → Res Bool
  | 0, _, _ => .error .diverge
  | f + 1, begin, data =>
    let block_id := value / 256
    if begin = end_ then .ok false
    else do
      let id ← rd8 m begin
      if id > block_id then return false
      else do
        let c1 ← rd8 m (begin + 1)
        let c := c1 + 1
        if id = block_id then do
          let base := id * 256
          cassert dbg (value ≥ base)
          let value := sub32 value base
          if c < 31 then sparse_block_contains m data c value
          else bitmap_contains (memWordsA m data) value
        else
          contains_sparse_chunk_loopA dbg m value end_ f (begin + 2)
            (data + (if c < 31 then c else 32))

/-- contains.hpp:23-55 -/
def contains_sparse_chunkA (dbg : Bool) (m : Mem) (begin blocks value : Nat) : Res Bool := do
  cassert dbg (blocks ≥ 1 && blocks ≤ 256)
  let data := begin + blocks * 2
  contains_sparse_chunk_loopA dbg m value data (blocks + 1) begin data

/-- contains.hpp:57-77 `s_sequence::contains` -/
def SSeq.containsA (dbg : Bool) (m : Mem) (s : SSeq) (value : Nat) : Res Bool := do
  let chunk_id := value / 65536
  let it ← s.begin.skip_to_valueA m chunk_id
  let i ← it.idA m
  if i = chunk_id then do
    let value := value % 65536
    let t ← it.typeA m
    if t = type_sparse then do
      let blocks ← it.blocksA m
      contains_sparse_chunkA dbg m it.data blocks value
    else if t = type_dense then bitmap_contains (memWordsA m it.data) value
    else if t = type_full then return true
    else unreachable dbg
  else return false

/-! ## select.hpp -/

/-- select.hpp:47-74, the loop of `select_sparse_chunk` -/
def select_sparse_chunk_loopA (dbg : Bool) (m : Mem) (rank end_ : Nat) :
    (fuel : Nat) → (begin data elements : Nat) → Res Nat
  | 0, _, _, _ => .error .diverge
  | f + 1, begin, data, elements =>
    if begin = end_ then unreachable dbg
    else do
      let id ← rd8 m begin
      let c1 ← rd8 m (begin + 1)
      let c := c1 + 1
      if u32 (elements + c) > rank then do
        let r := sub32 rank elements
        cassert dbg (r < c)
        let base := id * 256
        if c < 31 then do
          let x ← rd8 m (data + r)
          return u32 (x + base)
        else do
          let x ← select_bitmap dbg (memWordsA m data) block_size_in_64bit_words r
          return u32 (x + base)
      else
        select_sparse_chunk_loopA dbg m rank end_ f (begin + 2)
          (data + (if c < 31 then c else 32)) (u32 (elements + c))

/-- select.hpp:42-75 -/
def select_sparse_chunkA (dbg : Bool) (m : Mem) (begin blocks rank : Nat) : Res Nat := do
  cassert dbg (blocks ≥ 1 && blocks ≤ 256)
  let data := begin + blocks * 2
  select_sparse_chunk_loopA dbg m rank data (blocks + 1) begin data 0

/-- select.hpp:77-102 `s_sequence::select(rank, value)`: returns the boolean and the new content of
the reference parameter `value`. -/
def SSeq.selectA (dbg : Bool) (m : Mem) (s : SSeq) (rank value : Nat) : Res (Bool × Nat) := do
  let (it, elements) ← s.begin.skip_to_positionA m rank
  if it.has_next then do
    let rank := sub32 rank elements
    cassert dbg (rank < chunk_size)
    let t ← it.typeA m
    let value ←
      if t = type_sparse then do
        let blocks ← it.blocksA m
        select_sparse_chunkA dbg m it.data blocks rank
      else if t = type_dense then
        select_bitmap dbg (memWordsA m it.data) chunk_size_in_64bit_words rank
      else if t = type_full then pure rank
      else unreachable dbg
    let i ← it.idA m
    return (true, u32 (value + u32 (i * 65536)))
  else return (false, value)

/-! ## next_geq.hpp -/

/-- next_geq.hpp:81-87 -/
def max_value_in_blockA (m : Mem) (begin data : Nat) : Res Nat := do
  let c ← rd8 m (begin + 1)
  if c < 30 then rd8 m (data + c)
  else max_value_in_bitmap (memWordsA m data) block_size_in_64bit_words

/-- next_geq.hpp:5-8 `BLOCK_MIN` (and 10-17 `BLOCK_MIN_`) -/
def block_minA (m : Mem) (begin data base : Nat) : Res Nat := do
  let c ← rd8 m (begin + 1)
  if c < 30 then do
    let x ← rd8 m data
    return u32 (x + base)
  else do
    let x ← min_value_in_bitmap (memWordsA m data) block_size_in_64bit_words
    return u32 (x + base)

/-- next_geq.hpp:89-132 -/
def next_geq_sparse_chunkA (dbg : Bool) (m : Mem) (begin blocks value : Nat) : Res Nat := do
  cassert dbg (blocks ≥ 1 && blocks ≤ 256)
  let data := begin + blocks * 2
  let end_ := data
  let block_id := value / 256
  let id ← rd8 m begin
  let (begin, data, id) ← skip_blocks m block_id end_ (blocks + 1) begin data id
  if begin ≠ end_ then do
    let base := id * 256
    if base ≥ value then block_minA m begin data base
    else do
      let value := value % 256
      let mx ← max_value_in_blockA m begin data
      if value > mx then
        if begin + 2 = end_ then return not_found
        else do
          let c1 ← rd8 m (begin + 1)
          let data := data + bytes_by_cardinality (c1 + 1)
          let begin := begin + 2
          let id ← rd8 m begin
          block_minA m begin data (id * 256)
      else do
        let base := id * 256
        let c1 ← rd8 m (begin + 1)
        let c := c1 + 1
        if c < 31 then do
          let x ← next_geq_sparse_block m data c value
          return u32 (x + base)
        else do
          let x ← next_geq_bitmap (memWordsA m data) block_size_in_64bit_words value
          return u32 (x + base)
  else return not_found

/-- next_geq.hpp:134-140 -/
def min_value_in_sparse_chunkA (dbg : Bool) (m : Mem) (begin blocks : Nat) : Res Nat := do
  cassert dbg (blocks ≥ 1 && blocks ≤ 256)
  let data := begin + blocks * 2
  let id ← rd8 m begin
  block_minA m begin data (id * 256)

/-- next_geq.hpp:19-35 `CHUNK_MIN(it)` -/
def chunk_minA (dbg : Bool) (m : Mem) (it : It) : Res Nat := do
  let t ← it.typeA m
  let value ←
    if t = type_sparse then do
      let blocks ← it.blocksA m
      min_value_in_sparse_chunkA dbg m it.data blocks
    else if t = type_dense then min_value_in_bitmap (memWordsA m it.data) chunk_size_in_64bit_words
    else if t = type_full then pure 0
    else unreachable dbg
  let b ← it.baseA m
  return u32 (value + b)

/-- next_geq.hpp:142-176 `s_sequence::next_geq` -/
def SSeq.next_geqA (dbg : Bool) (m : Mem) (s : SSeq) (value : Nat) : Res Nat := do
  let chunk_id := value / 65536
  let it ← s.begin.skip_to_valueA m chunk_id
  let b ← it.baseA m
  if b ≥ value then chunk_minA dbg m it
  else if it.has_next then do
    let value := value % 65536
    let t ← it.typeA m
    let value ←
      if t = type_sparse then do
        let blocks ← it.blocksA m
        next_geq_sparse_chunkA dbg m it.data blocks value
      else if t = type_dense then
        next_geq_bitmap (memWordsA m it.data) chunk_size_in_64bit_words value
      else if t = type_full then pure value
      else unreachable dbg
    if value ≠ not_found then return u32 (value + b)
    else do
      let it ← it.nextA m
      if it.has_next then chunk_minA dbg m it
      else return not_found
  else return not_found

/-! ## uncompress.hpp

The output buffer is a `uint64_t*`, the bitmaps are copied with `memcpy`, and the blocks are read as
bytes: only the headers are 16-bit words. -/

/-- uncompress.hpp:72-92; returns the cardinality and the buffer -/
def uncompress_chunkA (dbg : Bool) (m : Mem) (it : It) (out : List Nat) (p : Nat) :
    Res (Nat × List Nat) := do
  let t ← it.typeA m
  let out ←
    if t = type_sparse then do
      let out ← wrs out p (List.replicate 1024 0)
      let blocks ← it.blocksA m
      uncompress_sparse_chunk dbg m it.data blocks out p
    else if t = type_dense then uncompress_dense_chunk m it.data out p
    else if t = type_full then uncompress_full_chunk out p
    else unreachable dbg
  let c ← it.cardinalityA m
  return (c, out)

/-- uncompress.hpp:98-104 (`n` chunks left; `p` is the word index of the moving `out` pointer) -/
def uncompress_loopA (dbg : Bool) (m : Mem) :
    (n : Nat) → It → (prev : Nat) → (out : List Nat) → (p uncompressed : Nat) →
    Res (Nat × List Nat)
  | 0, _, _, out, _, u => .ok (u, out)
  | n + 1, it, prev, out, p, u => do
    let i ← it.idA m
    let id := u16 i
    let p := p + id * chunk_size_in_64bit_words - prev * chunk_size_in_64bit_words
    let (c, out) ← uncompress_chunkA dbg m it out p
    let it ← it.nextA m
    uncompress_loopA dbg m n it id out p (u + c)

/-- uncompress.hpp:94-107 `s_sequence::uncompress` -/
def SSeq.uncompressA (dbg : Bool) (m : Mem) (s : SSeq) (out : List Nat) : Res (Nat × List Nat) := do
  let (u, out) ← uncompress_loopA dbg m s.chunks s.begin 0 out 0 0
  cassert dbg (u > 0)
  return (u, out)

/-! ## enumerator.hpp -/

/-- enumerator.hpp:12-21 `init`; `buf` is the member `m_buf` (65536 slots after construction,
enumerator.hpp:8-10, contents left over from earlier use). -/
def Enum.initA (dbg : Bool) (m : Mem) (buf : List Nat) (s : SSeq) (past_the_end : Nat) :
    Res Enum := do
  let it := s.begin
  let c ← it.cardinalityA m
  let (_, buf) ← decode_chunkA dbg m it buf 0
  return { it := it, chunk := 0, chunks := s.chunks, i := 0, cardinality := c,
           past_the_end := past_the_end, has_next := true, buf := buf }

/-- enumerator.hpp:27-38 `next` -/
def Enum.nextA (dbg : Bool) (m : Mem) (e : Enum) : Res Enum :=
  let i := u32 (e.i + 1)
  if i = e.cardinality then
    let chunk := u32 (e.chunk + 1)
    if chunk = e.chunks then
      return { e with i := i, chunk := chunk, has_next := false }
    else do
      let it ← e.it.nextA m
      let c ← it.cardinalityA m
      let (_, buf) ← decode_chunkA dbg m it e.buf 0
      return { e with i := 0, chunk := chunk, it := it, cardinality := c, buf := buf }
  else return { e with i := i }

/-- The loop `while (e.has_next()) { out.push_back(e.value()); e.next(); }` of
test_intersect_many.cpp:41-44 and test_union_many.cpp:54-57 -/
def Enum.collectA (dbg : Bool) (m : Mem) : (fuel : Nat) → Enum → Res (List Nat)
  | 0, _ => .error .diverge
  | fuel + 1, e =>
    if e.has_next then do
      let v ← e.value
      let e ← e.nextA dbg m
      let r ← Enum.collectA dbg m fuel e
      return v :: r
    else .ok []

/-! ## From an address -/

/-- `s_sequence(addr).cardinality()` -/
def cardinalityAtA (m : Mem) (addr : Nat) : Res Nat := do
  let s ← SSeq.ofAddrA m addr
  s.cardinalityA m

/-- `s_sequence(addr).contains(value)` -/
def containsAtA (dbg : Bool) (m : Mem) (addr value : Nat) : Res Bool := do
  let s ← SSeq.ofAddrA m addr
  s.containsA dbg m value

/-- `s_sequence(addr).select(rank, value)` -/
def selectAtA (dbg : Bool) (m : Mem) (addr rank value : Nat) : Res (Bool × Nat) := do
  let s ← SSeq.ofAddrA m addr
  s.selectA dbg m rank value

/-- `s_sequence(addr).next_geq(value)` -/
def nextGeqAtA (dbg : Bool) (m : Mem) (addr value : Nat) : Res Nat := do
  let s ← SSeq.ofAddrA m addr
  s.next_geqA dbg m value

/-- `s_sequence(addr).uncompress(out)` -/
def uncompressAtA (dbg : Bool) (m : Mem) (addr : Nat) (out : List Nat) : Res (Nat × List Nat) := do
  let s ← SSeq.ofAddrA m addr
  s.uncompressA dbg m out

/-- an enumerator over `s_sequence(addr)`, run until it has no next value -/
def collectAtA (dbg : Bool) (m : Mem) (buf : List Nat) (addr past_the_end fuel : Nat) :
    Res (List Nat) := do
  let s ← SSeq.ofAddrA m addr
  let e ← Enum.initA dbg m buf s past_the_end
  Enum.collectA dbg m fuel e

end Sliced
