import Verif.Model.Decode
/-!
# decode.hpp with the alignment rule of C++

The code reads 16-bit and 64-bit words through casted pointers.  In C++ such a read is undefined if the
address is not a multiple of the size of the word (on x86-64 the instruction works for every address,
which is what the rest of the model assumes).  Here are `decode` and what it calls once more, with loads
that check the address; the SIMD loads (`lddqu`) and the byte loads have no such rule.
-/
namespace Sliced

/-- `*p` for `uint16_t const* p` -/
def rd16a (m : Mem) (a : Nat) : Res Nat := if a % 2 = 0 then rd16 m a else .error .ub
/-- `p[i]` for `uint64_t const* p` -/
def memWordsA (m : Mem) (p : Nat) : Words :=
  fun i => if (p + 8 * i) % 8 = 0 then rd64 m (p + 8 * i) else .error .ub

/-- s_sequence.hpp:16-25, as `SSeq.ofAddr` -/
def SSeq.ofAddrA (m : Mem) (addr : Nat) : Res SSeq := do
  let c ← rd16a m addr
  let chunks := 1 + c
  let ptr := addr + 2
  let pointers_bytes := chunks / associativity * 4 * 2
  let header_bytes := chunks * 4 * 2
  return { chunks := chunks
           pointers := ptr
           header := ptr + pointers_bytes
           data := addr + 2 + pointers_bytes + header_bytes }

/-- s_sequence.hpp:74-77 -/
def It.idA (m : Mem) (it : It) : Res Nat := if it.has_next then rd16a m it.header else .ok 65536
/-- s_sequence.hpp:87-89 -/
def It.typeA (m : Mem) (it : It) : Res Nat := do
  let x ← rd16a m (it.header + 4)
  return x % 256
/-- s_sequence.hpp:91-93 -/
def It.blocksA (m : Mem) (it : It) : Res Nat := do
  let x ← rd16a m (it.header + 4)
  return x / 256 + 1
/-- s_sequence.hpp:95-103 -/
def It.nextA (m : Mem) (it : It) : Res It := do
  let o ← rd16a m (it.header + 6)
  return { it with data := it.data + o, header := it.header + 8, begin_ := it.begin_ + 1 }

/-- decode.hpp:64-82, as `decode_sparse_chunk_loop` -/
def decode_sparse_chunk_loopA (m : Mem) (base end_ : Nat) :
    (fuel : Nat) → (begin data : Nat) → (out : List Nat) → (tmp : Nat) → Res (Nat × List Nat)
  | 0, _, _, _, _ => .error .diverge
  | f + 1, begin, data, out, tmp =>
    if begin = end_ then .ok (tmp, out)
    else do
      let id ← rd8 m begin
      let c1 ← rd8 m (begin + 1)
      let c := c1 + 1
      let b := u32 (base + id * 256)
      if c < 31 then do
        let (n, out) ← decode_sparse_block m data c b out tmp
        decode_sparse_chunk_loopA m base end_ f (begin + 2) (data + c) out (tmp + n)
      else do
        let (n, out) ← decode_bitmap (memWordsA m data) block_size_in_64bit_words b out tmp
        decode_sparse_chunk_loopA m base end_ f (begin + 2) (data + 32) out (tmp + n)

/-- decode.hpp:58-84 -/
def decode_sparse_chunkA (dbg : Bool) (m : Mem) (begin blocks base : Nat) (out : List Nat) (p : Nat) :
    Res (Nat × List Nat) := do
  cassert dbg (blocks ≥ 1 && blocks ≤ 256)
  let data := begin + blocks * 2
  let (tmp, out) ← decode_sparse_chunk_loopA m base data (blocks + 1) begin data out p
  return (tmp - p, out)

/-- decode.hpp:91-106 -/
def decode_chunkA (dbg : Bool) (m : Mem) (it : It) (out : List Nat) (p : Nat) :
    Res (Nat × List Nat) := do
  let i ← it.idA m
  let base := u32 (i * 65536)
  let t ← it.typeA m
  if t = type_sparse then do
    let blocks ← it.blocksA m
    decode_sparse_chunkA dbg m it.data blocks base out p
  else if t = type_dense then
    decode_bitmap (memWordsA m it.data) chunk_size_in_64bit_words base out p
  else if t = type_full then decode_full_chunk base out p
  else unreachable dbg

/-- decode.hpp:111-114 -/
def decode_loopA (dbg : Bool) (m : Mem) : (n : Nat) → It → (out : List Nat) → (p : Nat) →
    Res (Nat × List Nat)
  | 0, _, out, p => .ok (p, out)
  | n + 1, it, out, p => do
    let (k, out) ← decode_chunkA dbg m it out p
    let it ← it.nextA m
    decode_loopA dbg m n it out (p + k)

/-- decode.hpp:108-116 -/
def SSeq.decodeA (dbg : Bool) (m : Mem) (s : SSeq) (out : List Nat) (p : Nat := 0) :
    Res (Nat × List Nat) := do
  let (q, out) ← decode_loopA dbg m s.chunks s.begin out p
  return (q - p, out)

/-- `s_sequence(addr).decode(out)` -/
def decodeAtA (dbg : Bool) (m : Mem) (addr : Nat) (out : List Nat) : Res (Nat × List Nat) := do
  let s ← SSeq.ofAddrA m addr
  s.decodeA dbg m out

end Sliced
