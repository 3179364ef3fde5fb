import Verif.Model.Sequence
/-! # select.hpp -/
namespace Sliced

/-- select.hpp:9-37, the word loop of `select_bitmap` (`n` words left, next word `i`) -/
def select_bitmap_loop (dbg : Bool) (b : Words) (rank : Nat) : (n i elements : Nat) → Res Nat
  | 0, _, _ => unreachable dbg
  | n + 1, i, elements => do
    let w ← b i
    let c := popcount w
    if u32 (elements + c) > rank then do
      let base := u32 (i * 64)
      cassert dbg (rank ≥ elements)
      let r := sub32 rank elements
      if r ≥ 64 then .error .ub -- `1ULL << rank`
      else
      let k := 2 ^ r
      let w := pdep k w
      let k := tzcnt w
      return u32 (k + base)
    else select_bitmap_loop dbg b rank n (i + 1) (u32 (elements + c))

/-- select.hpp:5-40 -/
def select_bitmap (dbg : Bool) (b : Words) (nwords rank : Nat) : Res Nat :=
  select_bitmap_loop dbg b rank nwords 0 0

/-- select.hpp:47-74, the loop of `select_sparse_chunk` -/
def select_sparse_chunk_loop (dbg : Bool) (m : Mem) (rank end_ : Nat) :
    (fuel : Nat) → (begin data elements : Nat) → Res Nat
  | 0, _, _, _ => .error .diverge
  | f + 1, begin, data, elements =>
    if begin = end_ then unreachable dbg
    else do
      let id ← rd8 m begin
      let c1 ← rd8 m (begin + 1)
      let c := c1 + 1
      if u32 (elements + c) > rank then do
        let r := sub32 rank elements
        cassert dbg (r < c)
        let base := id * 256
        if c < 31 then do
          let x ← rd8 m (data + r)
          return u32 (x + base)
        else do
          let x ← select_bitmap dbg (memWords m data) block_size_in_64bit_words r
          return u32 (x + base)
      else
        select_sparse_chunk_loop dbg m rank end_ f (begin + 2)
          (data + (if c < 31 then c else 32)) (u32 (elements + c))

/-- select.hpp:42-75 -/
def select_sparse_chunk (dbg : Bool) (m : Mem) (begin blocks rank : Nat) : Res Nat := do
  cassert dbg (blocks ≥ 1 && blocks ≤ 256)
  let data := begin + blocks * 2
  select_sparse_chunk_loop dbg m rank data (blocks + 1) begin data 0

/-- select.hpp:77-102 `s_sequence::select(rank, value)`: returns the boolean and the new content of
the reference parameter `value`. -/
def SSeq.select (dbg : Bool) (m : Mem) (s : SSeq) (rank value : Nat) : Res (Bool × Nat) := do
  let (it, elements) ← s.begin.skip_to_position m rank
  if it.has_next then do
    let rank := sub32 rank elements
    cassert dbg (rank < chunk_size)
    let t ← it.type m
    let value ←
      if t = type_sparse then do
        let blocks ← it.blocks m
        select_sparse_chunk dbg m it.data blocks rank
      else if t = type_dense then
        select_bitmap dbg (memWords m it.data) chunk_size_in_64bit_words rank
      else if t = type_full then pure rank
      else unreachable dbg
    let i ← it.id m
    return (true, u32 (value + u32 (i * 65536)))
  else return (false, value)

end Sliced
