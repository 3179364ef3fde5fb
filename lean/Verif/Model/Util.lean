import Verif.Model.Machine
/-! # constants.hpp and util.hpp -/
namespace Sliced

-- constants.hpp:7-18
/-- constants.hpp:7 -/
abbrev chunk_size : Nat := 65536
/-- constants.hpp:8 -/
abbrev block_size : Nat := 256
/-- constants.hpp:10 -/
abbrev chunk_size_in_64bit_words : Nat := 1024
/-- constants.hpp:11 -/
abbrev block_size_in_64bit_words : Nat := 4
/-- constants.hpp:13 (`chunk_size / 2`) -/
abbrev chunk_sparseness_threshold : Nat := 32768
/-- constants.hpp:14 (`block_size / 8`) -/
abbrev block_sparseness_threshold : Nat := 32
/-- constants.hpp:16 -/
abbrev associativity : Nat := 32
/-- constants.hpp:18 (`uint32_t(-1)`) -/
abbrev not_found : Nat := 4294967295

/-- util.hpp:64, `enum type { empty = 0, sparse = 1, dense = 3, full = 2 }` -/
abbrev type_sparse : Nat := 1
/-- util.hpp:64 -/
abbrev type_dense : Nat := 3
/-- util.hpp:64 -/
abbrev type_full : Nat := 2

/-- util.hpp:9 `chunk_pair(l, r)` -/
abbrev chunk_pair (l r : Nat) : Nat := 3 * l + r
/-- util.hpp:10 `block_pair(l, r)` -/
abbrev block_pair (l r : Nat) : Nat := 2 * l + r

/-- util.hpp:12 `BYTES_BY_CARDINALITY(c)` -/
def bytes_by_cardinality (c : Nat) : Nat := if c < 31 then c else 32

/-- A 64-bit-word bitmap as the code sees it through a `uint64_t const*`: word index ↦ load. -/
abbrev Words := Nat → Res Nat
/-- `reinterpret_cast<uint64_t const*>(p)` for a pointer `p` into readable memory -/
def memWords (m : Mem) (p : Nat) : Words := fun i => rd64 m (p + 8 * i)
/-- `v.data()` for a (scratch) vector of words -/
def vecWords (v : List Nat) : Words := fun i => rdv v i

/-- The loop `while (w != 0) { t = w & (~w + 1); r = ctz(w); out[size++] = r + base; w ^= t; }`
of util.hpp:22-27 and decode.hpp:15-20.  Returns the new index and the buffer. -/
def scan_word : (fuel : Nat) → (w base : Nat) → (out : List Nat) → (p : Nat) → Res (Nat × List Nat)
  | 0, _, _, _, _ => .error .diverge
  | f + 1, w, base, out, p =>
    if w = 0 then .ok (p, out)
    else do
      let t := w &&& u64 ((18446744073709551615 - w) + 1)
      let r ← ctz w
      let out ← wr out p (u32 (r + base))
      scan_word f (w ^^^ t) base out (p + 1)

/-- util.hpp:20-29, the word loop of `OPERATE_BITMAPS` (`n` words left, next word `i`). -/
def operate_loop (op : Nat → Nat → Nat) (l r : Words) :
    (n i base : Nat) → (out : List Nat) → (p : Nat) → Res (Nat × List Nat)
  | 0, _, _, out, p => .ok (p, out)
  | n + 1, i, base, out, p => do
    let x ← l i
    let y ← r i
    let (p, out) ← scan_word 65 (op x y) base out p
    operate_loop op l r n (i + 1) (u32 (base + 64)) out p

/-- util.hpp:16-30 `OPERATE_BITMAPS`; returns the number of values written and the buffer. -/
def operate_bitmaps (op : Nat → Nat → Nat) (l r : Words) (nwords base : Nat)
    (out : List Nat) (p : Nat) : Res (Nat × List Nat) := do
  let (q, out) ← operate_loop op l r nwords 0 base out p
  return (q - p, out)

/-- util.hpp:32-34 -/
def and_bitmaps := operate_bitmaps (fun a b => a &&& b)
/-- util.hpp:36-39 -/
def or_bitmaps := operate_bitmaps (fun a b => a ||| b)

/-- util.hpp:41-54 `bitmap_contains` (`bt` with a 64-bit register base takes the position mod 64;
`sbb r,r` turns the carry into a non-zero/zero value). -/
def bitmap_contains (b : Words) (pos : Nat) : Res Bool := do
  let w ← b (pos / 64)
  return w.testBit (pos % 64)

/-- util.hpp:56-58 -/
def bytes_for (bits : Nat) : Nat := (bits + 8 - 1) / 8

/-- util.hpp:60-62 -/
def num_chunks (univ : Nat) : Nat := u32 ((univ + chunk_size) / chunk_size)

/-- util.hpp:66-75 `parameters`.  The floating-point comparison
`double(n) / univ > params.density` is an oracle (`none`: density is negative, i.e. not given). -/
structure Params where
  /-- `none` when `density < 0`; otherwise the outcome of `double(n) / univ > density` -/
  denser : Option (Nat → Nat → Bool) := none
  /-- size threshold, default 0 -/
  size : Nat := 0

/-- util.hpp:77-82.  `double(0)/0` is NaN, and every comparison with NaN is false. -/
def pass (params : Params) (n univ : Nat) : Bool :=
  if (match params.denser with
      | some f => !(n == 0 && univ == 0) && f n univ
      | none => false) then true
  else if n > params.size then true
  else false

/-- util.hpp:96-169 `statistics` (the counters; 64-bit wrap-around is not modelled). -/
structure Stats where
  sequences : Nat := 0
  integers : Nat := 0
  integers_in_sparse_chunks : Nat := 0
  integers_in_dense_chunks : Nat := 0
  integers_in_full_chunks : Nat := 0
  integers_in_sparse_blocks : Nat := 0
  integers_in_dense_blocks : Nat := 0
  chunks : Nat := 0
  empty_chunks : Nat := 0
  sparse_chunks : Nat := 0
  very_sparse_chunks : Nat := 0
  dense_chunks : Nat := 0
  full_chunks : Nat := 0
  blocks : Nat := 0
  empty_blocks : Nat := 0
  sparse_blocks : Nat := 0
  dense_blocks : Nat := 0
  bits : Nat := 0
  chunks_header_bits : Nat := 0
  blocks_header_bits : Nat := 0
  dense_chunks_bits : Nat := 0
  dense_blocks_bits : Nat := 0
  sparse_blocks_bits : Nat := 0
  /-- `uint64_t sparse_blocks_cardinalities[1 + 30]` -/
  sparse_blocks_cardinalities : List Nat := List.replicate 31 0
  /-- `uint64_t num_blocks_in_chunks[1 + 256]` -/
  num_blocks_in_chunks : List Nat := List.replicate 257 0
  /-- `uint64_t num_integers[1 + 256]` -/
  num_integers : List Nat := List.replicate 257 0
  deriving DecidableEq

/-- util.hpp:136-149 `statistics::accumulate` (note: only these counters; array entries 1..30) -/
def Stats.accumulate (s other : Stats) : Stats :=
  { s with
    dense_blocks := s.dense_blocks + other.dense_blocks
    sparse_blocks := s.sparse_blocks + other.sparse_blocks
    empty_blocks := s.empty_blocks + other.empty_blocks
    integers_in_dense_blocks := s.integers_in_dense_blocks + other.integers_in_dense_blocks
    integers_in_sparse_blocks := s.integers_in_sparse_blocks + other.integers_in_sparse_blocks
    dense_blocks_bits := s.dense_blocks_bits + other.dense_blocks_bits
    sparse_blocks_bits := s.sparse_blocks_bits + other.sparse_blocks_bits
    sparse_blocks_cardinalities :=
      s.sparse_blocks_cardinalities.head?.toList ++
        List.zipWith (· + ·) s.sparse_blocks_cardinalities.tail
          other.sparse_blocks_cardinalities.tail }

/-- `a[i] += d` on a fixed-size array member -/
def arr_add (a : List Nat) (i d : Nat) : Res (List Nat) := do
  let x ← rdv a i
  wr a i (x + d)

end Sliced
