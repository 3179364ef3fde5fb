import Verif.Model.Builder
import Verif.Model.Sequence
/-! # s_index.hpp, the collection part of builder.hpp, and the saved file format -/
namespace Sliced

/-- The members of `s_index::builder` (builder.hpp:278-280), plus the statistics. -/
structure IdxState where
  offsets : List Nat
  sequences : List UInt8
  block : List Nat
  stats : Stats

/-- builder.hpp:241-255, the loop over the lists of the collection (`data` is the whole file as
32-bit words, `i` the current position; each list takes at least one word, so `data.length` bounds
the number of iterations). -/
def build_loop (dbg : Bool) (params : Params) (data : List Nat) :
    (fuel : Nat) → (i : Nat) → IdxState → Res IdxState
  | 0, _, _ => .error .diverge
  | f + 1, i, st =>
    if i < data.length then do
      let n ← rdv data i
      let univ ← rdv data (i + n)
      if pass params n univ then do
        let (block, stats, seqs) ←
          encode_sequence dbg ((data.drop (i + 1)).take n) st.block st.stats st.sequences
        build_loop dbg params data f (i + u32 (n + 1))
          { offsets := st.offsets ++ [seqs.length], sequences := seqs, block := block,
            stats := stats }
      else build_loop dbg params data f (i + u32 (n + 1)) st
    else .ok st

/-- builder.hpp:227-269 `s_index::builder::build`; returns `m_offsets`, `m_sequences` and the
statistics.  The progress output is not modelled. -/
def build_index (dbg : Bool) (params : Params) (data : List Nat) :
    Res (List Nat × List UInt8 × Stats) := do
  let d0 ← rdv data 0
  cassert dbg (d0 == 1)
  let d1 ← rdv data 1
  let st ← build_loop dbg params data (data.length + 1) 2
    { offsets := [d1, 0], sequences := [], block := [], stats := {} }
  let offsets := st.offsets.dropLast
  let stats := st.stats.finish
  let stats := { stats with bits := stats.bits + offsets.length * 64 }
  return (offsets, st.sequences, stats)

/-- `essentials::save` of the builder through `visit` (builder.hpp:271-275): for each vector its
length as a 64-bit word followed by the raw elements.  `essentials` is an external submodule that is
not in the repository; this is the format `s_index::mmap` (s_index.hpp:28-37) expects. -/
def save_index (offsets : List Nat) (sequences : List UInt8) : List UInt8 :=
  le64 offsets.length ++ offsets.flatMap le64 ++ le64 sequences.length ++ sequences

/-- s_index.hpp:40-44 -/
structure SIndex where
  offsets : Nat
  sequences : Nat
  size : Nat
  univ : Nat
  deriving DecidableEq, Repr

/-- s_index.hpp:28-37 `mmap` of a file mapped at address `a` -/
def SIndex.mmap (m : Mem) (a : Nat) : Res SIndex := do
  let size ← rd64 m a
  let univ ← rd64 m (a + 8)
  return { offsets := a + 16
           -- the product is of type `uint64_t`
           sequences := a + u64 (size * 8) + 8 + 8
           size := u64 (size + 18446744073709551615)
           univ := univ }

/-- s_index.hpp:23-26 `operator[]` -/
def SIndex.get (dbg : Bool) (m : Mem) (s : SIndex) (i : Nat) : Res SSeq := do
  cassert dbg (i < s.size)
  let o ← rd64 m (s.offsets + 8 * i)
  SSeq.ofAddr m (s.sequences + o)

end Sliced
