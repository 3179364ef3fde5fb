import Verif.Model.Sequence
/-! # uncompress.hpp -/
namespace Sliced

/-- uncompress.hpp:15-24, the do-while loop of the inline assembly: `movzbq`, `shrx 6`, load the
word, `bts` (position taken mod 64), store, `add 1`, `cmp`, `jnz`. -/
def uncompress_sparse_block_loop (m : Mem) (end_ : Nat) :
    (fuel : Nat) → (begin : Nat) → (out : List Nat) → (p : Nat) → Res (List Nat)
  | 0, _, _, _ => .error .diverge
  | f + 1, begin, out, p => do
    let pos ← rd8 m begin
    let offset := pos / 64
    let load ← rdv out (p + offset)
    let load := load ||| 2 ^ (pos % 64)
    let out ← wr out (p + offset) load
    if begin + 1 = end_ then return out
    else uncompress_sparse_block_loop m end_ f (begin + 1) out p

/-- uncompress.hpp:7-28; `p` is the word index of `out` in the buffer -/
def uncompress_sparse_block (m : Mem) (begin cardinality : Nat) (out : List Nat) (p : Nat) :
    Res (List Nat) :=
  uncompress_sparse_block_loop m (begin + cardinality) (cardinality + 1) begin out p

/-- `memcpy` of `n` 64-bit words -/
def memcpy_words (b : Words) : (n i : Nat) → (out : List Nat) → (p : Nat) → Res (List Nat)
  | 0, _, out, _ => .ok out
  | n + 1, i, out, p => do
    let w ← b i
    let out ← wr out (p + i) w
    memcpy_words b n (i + 1) out p

/-- uncompress.hpp:30-32 -/
def uncompress_dense_block (m : Mem) (begin : Nat) (out : List Nat) (p : Nat) : Res (List Nat) :=
  memcpy_words (memWords m begin) (block_size / 8 / 8) 0 out p

/-- uncompress.hpp:39-59, the loop of `uncompress_sparse_chunk` (`n` blocks left; `bitmap` is a
word index; `bitmap + 4*id - 4*prev` is the pointer increment of line 50). -/
def uncompress_sparse_chunk_loop (m : Mem) :
    (n : Nat) → (begin data prev : Nat) → (out : List Nat) → (bitmap : Nat) → Res (List Nat)
  | 0, _, _, _, out, _ => .ok out
  | n + 1, begin, data, prev, out, bitmap => do
    let id ← rd8 m begin
    let c1 ← rd8 m (begin + 1)
    let c := c1 + 1
    let bitmap := bitmap + id * block_size_in_64bit_words - prev * block_size_in_64bit_words
    if c < 31 then do
      let out ← uncompress_sparse_block m data c out bitmap
      uncompress_sparse_chunk_loop m n (begin + 2) (data + c) id out bitmap
    else do
      let out ← uncompress_dense_block m data out bitmap
      uncompress_sparse_chunk_loop m n (begin + 2) (data + 32) id out bitmap

/-- uncompress.hpp:34-60 -/
def uncompress_sparse_chunk (dbg : Bool) (m : Mem) (begin blocks : Nat) (out : List Nat) (p : Nat) :
    Res (List Nat) := do
  cassert dbg (blocks ≥ 1 && blocks ≤ 256)
  uncompress_sparse_chunk_loop m blocks begin (begin + blocks * 2) 0 out p

/-- uncompress.hpp:62-64 -/
def uncompress_dense_chunk (m : Mem) (begin : Nat) (out : List Nat) (p : Nat) : Res (List Nat) :=
  memcpy_words (memWords m begin) (chunk_size / 8 / 8) 0 out p

/-- uncompress.hpp:66-70 -/
def uncompress_full_chunk (out : List Nat) (p : Nat) : Res (List Nat) :=
  wrs out p (List.replicate chunk_size_in_64bit_words 18446744073709551615)

/-- uncompress.hpp:72-92; returns the cardinality and the buffer -/
def uncompress_chunk (dbg : Bool) (m : Mem) (it : It) (out : List Nat) (p : Nat) :
    Res (Nat × List Nat) := do
  let t ← it.type m
  let out ←
    if t = type_sparse then do
      let out ← wrs out p (List.replicate 1024 0)
      let blocks ← it.blocks m
      uncompress_sparse_chunk dbg m it.data blocks out p
    else if t = type_dense then uncompress_dense_chunk m it.data out p
    else if t = type_full then uncompress_full_chunk out p
    else unreachable dbg
  let c ← it.cardinality m
  return (c, out)

/-- uncompress.hpp:98-104 (`n` chunks left; `p` is the word index of the moving `out` pointer) -/
def uncompress_loop (dbg : Bool) (m : Mem) :
    (n : Nat) → It → (prev : Nat) → (out : List Nat) → (p uncompressed : Nat) →
    Res (Nat × List Nat)
  | 0, _, _, out, _, u => .ok (u, out)
  | n + 1, it, prev, out, p, u => do
    let i ← it.id m
    let id := u16 i
    let p := p + id * chunk_size_in_64bit_words - prev * chunk_size_in_64bit_words
    let (c, out) ← uncompress_chunk dbg m it out p
    let it ← it.next m
    uncompress_loop dbg m n it id out p (u + c)

/-- uncompress.hpp:94-107 `s_sequence::uncompress` -/
def SSeq.uncompress (dbg : Bool) (m : Mem) (s : SSeq) (out : List Nat) : Res (Nat × List Nat) := do
  let (u, out) ← uncompress_loop dbg m s.chunks s.begin 0 out 0 0
  cassert dbg (u > 0)
  return (u, out)

end Sliced
