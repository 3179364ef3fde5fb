import Verif.Model.Util
/-!
# building_util.hpp and the sequence part of builder.hpp

Input arrays are lists of `uint32_t` values; a pointer `begin` into the array is the remaining
suffix, `end` is the end of the list.
-/
namespace Sliced

/-- building_util.hpp:10-13 -/
structure Slice where
  left : Nat
  right : Nat

/-- little-endian bytes of a `uint16_t` (`write_uint<uint16_t>`, building_util.hpp:23-27) -/
def le16 (x : Nat) : List UInt8 := [UInt8.ofNat x, UInt8.ofNat (x / 256)]
/-- little-endian bytes of a `uint32_t` -/
def le32 (x : Nat) : List UInt8 := le16 (x % 65536) ++ le16 (x / 65536)
/-- little-endian bytes of a `uint64_t` -/
def le64 (x : Nat) : List UInt8 := le32 (x % 4294967296) ++ le32 (x / 4294967296)
/-- `write_uint<uint8_t>`, building_util.hpp:23-27 -/
def le8 (x : Nat) : List UInt8 := [UInt8.ofNat x]

/-- building_util.hpp:15-21 `set_bit<uint64_t>` -/
def set_bit (dbg : Bool) (position : Nat) (bits : List Nat) : Res (List Nat) := do
  cassert dbg (position < bits.length * 64)
  let w := position / 64
  let o := position % 64
  let x ← rdv bits w
  wr bits w (x ||| 2 ^ o)

/-- building_util.hpp:38-41, the loop of `write_bits` (reading past the array is UB) -/
def write_bits_loop (dbg : Bool) (base : Nat) : (n : Nat) → (begin : List Nat) → (bitmap : List Nat) → Res (List Nat)
  | 0, _, bitmap => .ok bitmap
  | _ + 1, [], _ => .error .ub
  | n + 1, x :: begin, bitmap => do
    let bitmap ← set_bit dbg (sub32 x base) bitmap
    write_bits_loop dbg base n begin bitmap

/-- building_util.hpp:34-44 -/
def write_bits (dbg : Bool) (begin : List Nat) (n bits base : Nat) (out : List UInt8) :
    Res (List UInt8) := do
  cassert dbg (bits % 64 == 0)
  let bitmap ← write_bits_loop dbg base n begin (List.replicate (bits / 64) 0)
  return out ++ bitmap.flatMap le64

/-- building_util.hpp:50-57, the loop of `chunk_cardinality` -/
def chunk_cardinality_loop (dbg : Bool) (s : Slice) : (begin : List Nat) → (prev c : Nat) → Res Nat
  | [], _, c => .ok c
  | x :: begin, prev, c =>
    if x < s.right then do
      cassert dbg (x ≥ s.left)
      cassert dbg (sub32 x s.left < chunk_size)
      if x = prev then .error .exc
      else chunk_cardinality_loop dbg s begin x (c + 1)
    else .ok c

/-- building_util.hpp:46-60 -/
def chunk_cardinality (dbg : Bool) (begin : List Nat) (s : Slice) : Res Nat := do
  let c ← chunk_cardinality_loop dbg s begin 4294967295 0
  cassert dbg (c > 0 && c ≤ chunk_size)
  return c

/-- building_util.hpp:62-78 (the parameter shadows `constants::block_size`; it is called `bs`) -/
def block_bitsize (dbg : Bool) (bs : Nat) (stats : Stats) : Res Stats := do
  let stats := { stats with blocks := stats.blocks + 1 }
  cassert dbg (bs ≤ block_size)
  if bs = 0 then
    return { stats with empty_blocks := stats.empty_blocks + 1 }
  else if bs ≥ block_sparseness_threshold - 1 then
    return { stats with
      dense_blocks := stats.dense_blocks + 1
      dense_blocks_bits := stats.dense_blocks_bits + block_size
      integers_in_dense_blocks := stats.integers_in_dense_blocks + bs }
  else do
    cassert dbg (bs ≤ block_sparseness_threshold - 2)
    let cards ← arr_add stats.sparse_blocks_cardinalities bs 1
    return { stats with
      sparse_blocks := stats.sparse_blocks + 1
      integers_in_sparse_blocks := stats.integers_in_sparse_blocks + bs
      sparse_blocks_bits := stats.sparse_blocks_bits + 8 * (bs + 1)
      sparse_blocks_cardinalities := cards }

/-- building_util.hpp:85-97, the loop of `sparse_chunk_bitsize` (`bs` is the local `block_size`) -/
def sparse_chunk_bitsize_loop (dbg : Bool) (s : Slice) :
    (fuel : Nat) → (begin : List Nat) → (base bs : Nat) → (stats : Stats) → Res (Nat × Stats)
  | 0, _, _, _, _ => .error .diverge
  | _ + 1, [], _, bs, stats => .ok (bs, stats)
  | f + 1, x :: begin, base, bs, stats =>
    if x < s.right then do
      let val := sub32 x base
      if val ≥ block_size then do
        let stats ← block_bitsize dbg bs stats
        sparse_chunk_bitsize_loop dbg s f (x :: begin) (u32 (base + block_size)) 0 stats
      else do
        cassert dbg (val < block_size)
        let bs := bs + 1
        cassert dbg (bs ≤ block_size)
        sparse_chunk_bitsize_loop dbg s f begin base bs stats
    else .ok (bs, stats)

/-- Enough fuel for any input: every element costs at most `2^24` block flushes and one step. -/
def sparse_loop_fuel (begin : List Nat) : Nat := begin.length * 16777217 + 1

/-- building_util.hpp:80-100 -/
def sparse_chunk_bitsize (dbg : Bool) (begin : List Nat) (s : Slice) : Res Stats := do
  let (bs, stats) ← sparse_chunk_bitsize_loop dbg s (sparse_loop_fuel begin) begin s.left 0 {}
  block_bitsize dbg bs stats

/-- builder.hpp:15-29 `encode_block`; returns `id`, `header`, `data` (the block is cleared:
the caller continues with `[]`). -/
def encode_block (dbg : Bool) (block : List Nat) (id : Nat) (header data : List UInt8) :
    Res (Nat × List UInt8 × List UInt8) :=
  if block.length > 0 then do
    let header := header ++ le8 id
    let header := header ++ le8 (block.length - 1)
    if block.length ≥ block_sparseness_threshold - 1 then do
      let data ← write_bits dbg block block.length block_size 0 data
      return (id + 1, header, data)
    else
      return (id + 1, header, data ++ block.flatMap le8)
  else
    return (id + 1, header, data)

/-- builder.hpp:40-51, the loop of `encode_sparse_chunk` -/
def encode_sparse_chunk_loop (dbg : Bool) (s : Slice) :
    (fuel : Nat) → (begin : List Nat) → (base id : Nat) → (block : List Nat) →
    (header data : List UInt8) → Res (Nat × List Nat × List UInt8 × List UInt8)
  | 0, _, _, _, _, _, _ => .error .diverge
  | _ + 1, [], _, id, block, header, data => .ok (id, block, header, data)
  | f + 1, x :: begin, base, id, block, header, data =>
    if x < s.right then do
      let val := sub32 x base
      if val ≥ block_size then do
        let (id, header, data) ← encode_block dbg block id header data
        encode_sparse_chunk_loop dbg s f (x :: begin) (u32 (base + block_size)) id [] header data
      else do
        cassert dbg (val < block_size)
        let block := block ++ [val]
        cassert dbg (block.length ≤ block_size)
        encode_sparse_chunk_loop dbg s f begin base id block header data
    else .ok (id, block, header, data)

/-- builder.hpp:31-55.  Returns `block` (always cleared) and `out`. -/
def encode_sparse_chunk (dbg : Bool) (begin : List Nat) (s : Slice) (block : List Nat)
    (out : List UInt8) : Res (List Nat × List UInt8) := do
  let (id, block, header, data) ←
    encode_sparse_chunk_loop dbg s (sparse_loop_fuel begin) begin s.left 0 block [] []
  let (_, header, data) ← encode_block dbg block id header data
  return ([], out ++ header ++ data)

/-- The mutable locals of the chunk loop in `encode_sequence`. -/
structure EncState where
  /-- `begin` (remaining input) -/
  rest : List Nat
  /-- `s` -/
  s : Slice
  /-- `chunks_header`, a vector of `uint16_t` -/
  header : List Nat
  /-- `tmp` -/
  tmp : List UInt8
  /-- `block` -/
  block : List Nat
  stats : Stats

/-- builder.hpp:79-167, one iteration `i` of the chunk loop. -/
def encode_chunk_step (dbg : Bool) (i : Nat) (e : EncState) : Res EncState := do
  let dense_chunk_bytes := u32 (bytes_for chunk_size)
  let s := e.s
  let next : Slice := { left := s.right, right := u32 (s.right + chunk_size) }
  match e.rest with
  | [] => .error .ub -- `*begin` with `begin == end`
  | x :: _ =>
    if x < s.right then do
      let cardinality ← chunk_cardinality dbg e.rest s
      let header := e.header ++ [u16 i, u16 (cardinality - 1)]
      let st := e.stats
      if cardinality < chunk_sparseness_threshold then do
        let sp ← sparse_chunk_bitsize dbg e.rest s
        let sparse_chunk_bytes :=
          (sp.dense_blocks * 16 + sp.sparse_blocks * 8 + sp.dense_blocks_bits
            + sp.sparse_blocks_bits) / 8
        if sparse_chunk_bytes ≥ dense_chunk_bytes then do
          let st := { st with
            dense_chunks := st.dense_chunks + 1
            dense_chunks_bits := st.dense_chunks_bits + dense_chunk_bytes * 8
            integers_in_dense_chunks := st.integers_in_dense_chunks + cardinality }
          let header := header ++ [type_dense, u16 (chunk_size / 8)]
          let tmp ← write_bits dbg e.rest cardinality chunk_size s.left e.tmp
          return { rest := e.rest.drop cardinality, s := next, header, tmp, block := e.block,
                   stats := st }
        else do
          let st := { st with
            sparse_chunks := st.sparse_chunks + 1
            integers_in_sparse_chunks := st.integers_in_sparse_chunks + cardinality }
          let num_non_empty_blocks := u16 (sp.dense_blocks + sp.sparse_blocks)
          cassert dbg (num_non_empty_blocks ≥ 1 && num_non_empty_blocks ≤ chunk_size / block_size)
          let nb ← arr_add st.num_blocks_in_chunks num_non_empty_blocks 1
          let ni ← arr_add st.num_integers num_non_empty_blocks cardinality
          let st := { st with
            num_blocks_in_chunks := nb
            num_integers := ni
            blocks := st.blocks + (num_non_empty_blocks + sp.empty_blocks) }
          let st := st.accumulate sp
          let packed := u16 (type_sparse ||| ((num_non_empty_blocks - 1) * 256))
          let header := header ++ [packed, u16 sparse_chunk_bytes]
          let (block, tmp) ← encode_sparse_chunk dbg e.rest s e.block e.tmp
          return { rest := e.rest.drop cardinality, s := next, header, tmp, block, stats := st }
      else if cardinality = chunk_size then
        let st := { st with
          full_chunks := st.full_chunks + 1
          integers_in_full_chunks := st.integers_in_full_chunks + cardinality }
        let header := header ++ [type_full, 0]
        return { rest := e.rest.drop cardinality, s := next, header, tmp := e.tmp, block := e.block,
                 stats := st }
      else do
        let st := { st with
          dense_chunks := st.dense_chunks + 1
          dense_chunks_bits := st.dense_chunks_bits + dense_chunk_bytes * 8
          integers_in_dense_chunks := st.integers_in_dense_chunks + cardinality }
        -- `assert(dense_chunk_bytes * 8.0 / cardinality <= 2.0)`, multiplied out
        cassert dbg (dense_chunk_bytes * 8 ≤ 2 * cardinality)
        let header := header ++ [type_dense, u16 (chunk_size / 8)]
        let tmp ← write_bits dbg e.rest cardinality chunk_size s.left e.tmp
        return { rest := e.rest.drop cardinality, s := next, header, tmp, block := e.block,
                 stats := st }
    else
      return { e with
        s := next
        stats := { e.stats with empty_chunks := e.stats.empty_chunks + 1 } }

/-- builder.hpp:78-167 `for (uint32_t i = 0; i != chunks; ++i)`; `n` iterations left. -/
def encode_chunks (dbg : Bool) : (n i : Nat) → EncState → Res EncState
  | 0, _, e => .ok e
  | n + 1, i, e => do
    let e ← encode_chunk_step dbg i e
    encode_chunks dbg n (i + 1) e

/-- builder.hpp:185-189: the inner pointer loop over `associativity` chunk headers. -/
def pointer_group (header : List Nat) : (n base cardinality offset : Nat) → Res (Nat × Nat)
  | 0, _, c, o => .ok (c, o)
  | n + 1, base, c, o => do
    let h1 ← rdv header (base + 1)
    let h3 ← rdv header (base + 3)
    pointer_group header n (base + 4) (u32 (c + (h1 + 1))) (u32 (o + h3))

/-- builder.hpp:181-192: the pointers of `n` groups, starting with group `i`. -/
def pointer_bytes (header : List Nat) : (n i : Nat) → Res (List UInt8)
  | 0, _ => .ok []
  | n + 1, i => do
    let (c, o) ← pointer_group header associativity (u32 (i * 4 * associativity)) 0 0
    let rest ← pointer_bytes header n (i + 1)
    return le32 c ++ le32 o ++ rest

/-- builder.hpp:57-202 `encode_sequence(data, n, block, stats, out)`. -/
def encode_sequence (dbg : Bool) (data : List Nat) (block : List Nat) (stats : Stats)
    (out : List UInt8) : Res (List Nat × Stats × List UInt8) := do
  cassert dbg block.isEmpty
  match data.getLast? with
  | none => .error .ub -- `*(data + n - 1)` with `n == 0`
  | some univ =>
    let chunks := num_chunks univ
    cassert dbg (chunks > 0 && chunks ≤ chunk_size)
    let stats := { stats with
      sequences := stats.sequences + 1
      integers := stats.integers + data.length
      chunks := stats.chunks + chunks }
    let e ← encode_chunks dbg chunks 0
      { rest := data, s := { left := 0, right := chunk_size }, header := [], tmp := [],
        block := block, stats := stats }
    cassert dbg e.rest.isEmpty
    let chunks := u32 (e.header.length / 4)
    let offsets := chunks / associativity
    let ptrs ← pointer_bytes e.header offsets 0
    -- `chunks - 1` wraps in `uint32_t` and is truncated to `uint16_t`
    let out := out ++ le16 (u16 (sub32 chunks 1)) ++ ptrs ++ e.header.flatMap le16 ++ e.tmp
    let st := e.stats
    let st := { st with
      chunks_header_bits :=
        st.chunks_header_bits + (chunks * 16 * 4 + 16 + offsets * 4 * 8 + offsets * 4 * 8) }
    return (e.block, st, out)

/-- builder.hpp:212-218 and 259-266 -/
def Stats.finish (stats : Stats) : Stats :=
  let stats := { stats with
    blocks_header_bits := stats.dense_blocks * 16 + stats.sparse_blocks * 8 }
  let stats := { stats with
    bits := stats.chunks_header_bits + stats.blocks_header_bits + stats.dense_chunks_bits
      + stats.dense_blocks_bits + stats.sparse_blocks_bits }
  { stats with bits := stats.bits + 2 * 64 }

/-- builder.hpp:204-221 `encode_sequence(data, n, out)`; also
`s_sequence::builder::build` (builder.hpp:286-288), where `out` is the member `m_out`. -/
def build_sequence (dbg : Bool) (data : List Nat) (out : List UInt8) :
    Res (Stats × List UInt8) := do
  let (_, stats, out) ← encode_sequence dbg data [] {} out
  return (stats.finish, out)

end Sliced
