import Verif.Model.Sequence
/-! # decode.hpp -/
namespace Sliced

/-- decode.hpp:13-22, the word loop of `decode_bitmap` -/
def decode_bitmap_loop (b : Words) : (n i base : Nat) → (out : List Nat) → (p : Nat) →
    Res (Nat × List Nat)
  | 0, _, _, out, p => .ok (p, out)
  | n + 1, i, base, out, p => do
    let w ← b i
    let (p, out) ← scan_word 65 w base out p
    decode_bitmap_loop b n (i + 1) (u32 (base + 64)) out p

/-- decode.hpp:9-24; returns the number of values written and the buffer -/
def decode_bitmap (b : Words) (nwords base : Nat) (out : List Nat) (p : Nat) :
    Res (Nat × List Nat) := do
  let (q, out) ← decode_bitmap_loop b nwords 0 base out p
  return (q - p, out)

/-- one `lddqu / cvtepu8 / add / storeu` group of decode.hpp:32-35 -/
def decode_lane (m : Mem) (src base : Nat) (out : List Nat) (p : Nat) : Res (List Nat) := do
  let v ← lddqu m src
  storeu out p (cvtAdd base v)

/-- decode.hpp:26-56 -/
def decode_sparse_block (m : Mem) (begin cardinality base : Nat) (out : List Nat) (p : Nat) :
    Res (Nat × List Nat) := do
  let out ← decode_lane m (begin + 0) base out (p + 0)
  if cardinality ≤ 8 then return (cardinality, out)
  else do
    let out ← decode_lane m (begin + 8) base out (p + 8)
    let out ← decode_lane m (begin + 16) base out (p + 16)
    let out ← decode_lane m (begin + 24) base out (p + 24)
    return (cardinality, out)

/-- decode.hpp:64-82, the loop of `decode_sparse_chunk` (`tmp` is the output index) -/
def decode_sparse_chunk_loop (m : Mem) (base end_ : Nat) :
    (fuel : Nat) → (begin data : Nat) → (out : List Nat) → (tmp : Nat) → Res (Nat × List Nat)
  | 0, _, _, _, _ => .error .diverge
  | f + 1, begin, data, out, tmp =>
    if begin = end_ then .ok (tmp, out)
    else do
      let id ← rd8 m begin
      let c1 ← rd8 m (begin + 1)
      let c := c1 + 1
      let b := u32 (base + id * 256)
      if c < 31 then do
        let (n, out) ← decode_sparse_block m data c b out tmp
        decode_sparse_chunk_loop m base end_ f (begin + 2) (data + c) out (tmp + n)
      else do
        let (n, out) ← decode_bitmap (memWords m data) block_size_in_64bit_words b out tmp
        decode_sparse_chunk_loop m base end_ f (begin + 2) (data + 32) out (tmp + n)

/-- decode.hpp:58-84 -/
def decode_sparse_chunk (dbg : Bool) (m : Mem) (begin blocks base : Nat) (out : List Nat) (p : Nat) :
    Res (Nat × List Nat) := do
  cassert dbg (blocks ≥ 1 && blocks ≤ 256)
  let data := begin + blocks * 2
  let (tmp, out) ← decode_sparse_chunk_loop m base data (blocks + 1) begin data out p
  return (tmp - p, out)

/-- decode.hpp:86-89 -/
def decode_full_chunk (base : Nat) (out : List Nat) (p : Nat) : Res (Nat × List Nat) := do
  let out ← wrs out p ((List.range chunk_size).map (fun i => u32 (i + base)))
  return (chunk_size, out)

/-- decode.hpp:91-106 -/
def decode_chunk (dbg : Bool) (m : Mem) (it : It) (out : List Nat) (p : Nat) :
    Res (Nat × List Nat) := do
  let i ← it.id m
  let base := u32 (i * 65536)
  let t ← it.type m
  if t = type_sparse then do
    let blocks ← it.blocks m
    decode_sparse_chunk dbg m it.data blocks base out p
  else if t = type_dense then
    decode_bitmap (memWords m it.data) chunk_size_in_64bit_words base out p
  else if t = type_full then decode_full_chunk base out p
  else unreachable dbg

/-- decode.hpp:111-114 (`n` chunks left) -/
def decode_loop (dbg : Bool) (m : Mem) : (n : Nat) → It → (out : List Nat) → (p : Nat) →
    Res (Nat × List Nat)
  | 0, _, out, p => .ok (p, out)
  | n + 1, it, out, p => do
    let (k, out) ← decode_chunk dbg m it out p
    let it ← it.next m
    decode_loop dbg m n it out (p + k)

/-- decode.hpp:108-116 `s_sequence::decode`, writing from index `p` of the buffer on. -/
def SSeq.decode (dbg : Bool) (m : Mem) (s : SSeq) (out : List Nat) (p : Nat := 0) :
    Res (Nat × List Nat) := do
  let (q, out) ← decode_loop dbg m s.chunks s.begin out p
  return (q - p, out)

end Sliced
