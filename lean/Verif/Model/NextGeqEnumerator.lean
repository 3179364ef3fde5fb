import Verif.Model.NextGeq
/-! # next_geq_enumerator.hpp -/
namespace Sliced

/-- next_geq_enumerator.hpp:113-119, the members (`nullptr` is address 0) -/
structure GeqEnum where
  chunk_id : Nat
  id : Nat
  begin_ : Nat
  end_ : Nat
  data : Nat
  size : Nat
  it : It
  deriving DecidableEq, Repr

/-- next_geq_enumerator.hpp:10-17, the constructor -/
def GeqEnum.new (m : Mem) (s : SSeq) : Res GeqEnum := do
  let n ← s.size m
  return { chunk_id := 4294967295, id := 0, begin_ := 0, end_ := 0, data := 0, size := n,
           it := s.begin }

/-- next_geq_enumerator.hpp:34-90, the `case type::sparse` of `next_geq`: returns the new state
and the new `value`. -/
def GeqEnum.sparse_case (dbg : Bool) (m : Mem) (e : GeqEnum) (value : Nat) :
    Res (GeqEnum × Nat) := do
  let block_id := value / 256
  let cid ← e.it.id m
  let e ←
    if e.chunk_id ≠ cid then do
      let blocks ← e.it.blocks m
      cassert dbg (blocks ≥ 1 && blocks ≤ 256)
      let begin_ := e.it.data
      let data := begin_ + blocks * 2
      let id ← rd8 m begin_
      pure { e with begin_ := begin_, data := data, end_ := data, id := id, chunk_id := cid }
    else pure e
  let (b, d, i) ← skip_blocks m block_id e.end_ (e.end_ - e.begin_ + 1) e.begin_ e.data e.id
  let e := { e with begin_ := b, data := d, id := i }
  if e.begin_ ≠ e.end_ then do
    let base := e.id * 256
    if base ≥ value then do
      let v ← block_min m e.begin_ e.data base
      return (e, v)
    else do
      let value := value % 256
      let mx ← max_value_in_block m e.begin_ e.data
      if value > mx then
        if e.begin_ + 2 = e.end_ then return (e, not_found)
        else do
          let c1 ← rd8 m (e.begin_ + 1)
          let data := e.data + bytes_by_cardinality (c1 + 1)
          let begin_ := e.begin_ + 2
          let id ← rd8 m begin_
          let e := { e with data := data, begin_ := begin_, id := id }
          let v ← block_min m e.begin_ e.data (e.id * 256)
          return (e, v)
      else do
        let base := e.id * 256
        let c1 ← rd8 m (e.begin_ + 1)
        let c := c1 + 1
        if c < 31 then do
          let x ← next_geq_sparse_block m e.data c value
          return (e, u32 (x + base))
        else do
          let x ← next_geq_bitmap (memWords m e.data) block_size_in_64bit_words value
          return (e, u32 (x + base))
  else return (e, not_found)

/-- next_geq_enumerator.hpp:23-110 `next_geq`: returns the new state and the answer -/
def GeqEnum.next_geq (dbg : Bool) (m : Mem) (e : GeqEnum) (value : Nat) : Res (GeqEnum × Nat) := do
  let chunk_id := value / 65536
  let it ← e.it.skip_to_value m chunk_id
  let e := { e with it := it }
  let b ← e.it.base m
  if b ≥ value then do
    let v ← chunk_min dbg m e.it
    return (e, v)
  else if e.it.has_next then do
    let value := value % 65536
    let t ← e.it.type m
    let (e, value) ←
      if t = type_sparse then e.sparse_case dbg m value
      else if t = type_dense then do
        let v ← next_geq_bitmap (memWords m e.it.data) chunk_size_in_64bit_words value
        pure (e, v)
      else if t = type_full then pure (e, value)
      else unreachable dbg
    if value ≠ not_found then do
      let b ← e.it.base m
      return (e, u32 (value + b))
    else do
      let it ← e.it.next m
      let e := { e with it := it }
      if e.it.has_next then do
        let v ← chunk_min dbg m e.it
        return (e, v)
      else return (e, not_found)
  else return (e, not_found)

/-- A history of calls; returns the answers. -/
def GeqEnum.run (dbg : Bool) (m : Mem) : GeqEnum → List Nat → Res (List Nat)
  | _, [] => .ok []
  | e, v :: vs => do
    let (e, a) ← e.next_geq dbg m v
    let rest ← GeqEnum.run dbg m e vs
    return a :: rest

end Sliced
