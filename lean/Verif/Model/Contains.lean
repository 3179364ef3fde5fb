import Verif.Model.Sequence
/-! # contains.hpp -/
namespace Sliced

/-- contains.hpp:7-21 (`n` elements left, next index `i`) -/
def sparse_block_contains_loop (m : Mem) (begin value : Nat) : (n i : Nat) → Res Bool
  | 0, _ => .ok false
  | n + 1, i => do
    let x ← rd8 m (begin + i)
    if x > value then return false
    else if x = value then return true
    else sparse_block_contains_loop m begin value n (i + 1)

/-- contains.hpp:7-21 -/
def sparse_block_contains (m : Mem) (begin cardinality value : Nat) : Res Bool :=
  sparse_block_contains_loop m begin value cardinality 0

/-- contains.hpp:29-52, the loop of `contains_sparse_chunk` -/
def contains_sparse_chunk_loop (dbg : Bool) (m : Mem) (value end_ : Nat) :
    (fuel : Nat) → (begin data : Nat) → Res Bool
  | 0, _, _ => .error .diverge
  | f + 1, begin, data =>
    let block_id := value / 256
    if begin = end_ then .ok false
    else do
      let id ← rd8 m begin
      if id > block_id then return false
      else do
        let c1 ← rd8 m (begin + 1)
        let c := c1 + 1
        if id = block_id then do
          let base := id * 256
          cassert dbg (value ≥ base)
          let value := sub32 value base
          if c < 31 then sparse_block_contains m data c value
          else bitmap_contains (memWords m data) value
        else
          contains_sparse_chunk_loop dbg m value end_ f (begin + 2)
            (data + (if c < 31 then c else 32))

/-- contains.hpp:23-55 -/
def contains_sparse_chunk (dbg : Bool) (m : Mem) (begin blocks value : Nat) : Res Bool := do
  cassert dbg (blocks ≥ 1 && blocks ≤ 256)
  let data := begin + blocks * 2
  contains_sparse_chunk_loop dbg m value data (blocks + 1) begin data

/-- contains.hpp:57-77 `s_sequence::contains` -/
def SSeq.contains (dbg : Bool) (m : Mem) (s : SSeq) (value : Nat) : Res Bool := do
  let chunk_id := value / 65536
  let it ← s.begin.skip_to_value m chunk_id
  let i ← it.id m
  if i = chunk_id then do
    let value := value % 65536
    let t ← it.type m
    if t = type_sparse then do
      let blocks ← it.blocks m
      contains_sparse_chunk dbg m it.data blocks value
    else if t = type_dense then bitmap_contains (memWords m it.data) value
    else if t = type_full then return true
    else unreachable dbg
  else return false

end Sliced
