import Verif.Model.Util
/-! # s_sequence.hpp -/
namespace Sliced

/-- s_sequence.hpp:7-171 `s_sequence`: the four data members (addresses). -/
structure SSeq where
  chunks : Nat
  pointers : Nat
  header : Nat
  data : Nat
  deriving DecidableEq, Repr

/-- s_sequence.hpp:16-25, the constructor from an address. -/
def SSeq.ofAddr (m : Mem) (addr : Nat) : Res SSeq := do
  let c ← rd16 m addr
  let chunks := 1 + c
  let ptr := addr + 2
  let pointers_bytes := chunks / associativity * 4 * 2
  let header_bytes := chunks * 4 * 2
  return { chunks := chunks
           pointers := ptr
           header := ptr + pointers_bytes
           data := addr + 2 + pointers_bytes + header_bytes }

/-- s_sequence.hpp:48-51, the loop of `cardinality` (`n` chunks left) -/
def cardinality_loop (m : Mem) : (n h c : Nat) → Res Nat
  | 0, _, c => .ok c
  | n + 1, h, c => do
    let x ← rd16 m (h + 2)
    cardinality_loop m n (h + 8) (u32 (c + (x + 1)))

/-- s_sequence.hpp:45-53 (and `size()`, lines 55-57) -/
def SSeq.cardinality (m : Mem) (s : SSeq) : Res Nat := cardinality_loop m s.chunks s.header 0

/-- s_sequence.hpp:55-57 -/
def SSeq.size (m : Mem) (s : SSeq) : Res Nat := s.cardinality m

/-- s_sequence.hpp:59-159 `s_sequence::iterator` -/
structure It where
  pointers : Nat
  header : Nat
  data : Nat
  begin_ : Nat
  end_ : Nat
  deriving DecidableEq, Repr

/-- s_sequence.hpp:161-163 -/
def SSeq.begin (s : SSeq) : It :=
  { pointers := s.pointers, header := s.header, data := s.data, begin_ := 0, end_ := s.chunks }

/-- s_sequence.hpp:105-107 -/
def It.has_next (it : It) : Bool := it.begin_ < it.end_
/-- s_sequence.hpp:74-77 -/
def It.id (m : Mem) (it : It) : Res Nat := if it.has_next then rd16 m it.header else .ok 65536
/-- s_sequence.hpp:79-81; the shift is in `uint32_t`, so a saturated id gives 0 -/
def It.base (m : Mem) (it : It) : Res Nat := do
  let i ← it.id m
  return u32 (i * 65536)
/-- s_sequence.hpp:83-85 -/
def It.cardinality (m : Mem) (it : It) : Res Nat := do
  let x ← rd16 m (it.header + 2)
  return x + 1
/-- s_sequence.hpp:87-89 (`& 255`) -/
def It.type (m : Mem) (it : It) : Res Nat := do
  let x ← rd16 m (it.header + 4)
  return x % 256
/-- s_sequence.hpp:91-93 (`>> 8`) -/
def It.blocks (m : Mem) (it : It) : Res Nat := do
  let x ← rd16 m (it.header + 4)
  return x / 256 + 1
/-- s_sequence.hpp:95-97 -/
def It.offset (m : Mem) (it : It) : Res Nat := rd16 m (it.header + 6)
/-- s_sequence.hpp:99-103 -/
def It.next (m : Mem) (it : It) : Res It := do
  let o ← it.offset m
  return { it with data := it.data + o, header := it.header + 8, begin_ := it.begin_ + 1 }

/-- s_sequence.hpp:109-111 `advance`; `id() < lower_bound` is evaluated first. -/
def It.advance_loop (m : Mem) (lower_bound : Nat) : (fuel : Nat) → It → Res It
  | 0, _ => .error .diverge
  | f + 1, it => do
    let i ← it.id m
    if i < lower_bound && it.has_next then do
      let it ← it.next m
      It.advance_loop m lower_bound f it
    else return it

/-- s_sequence.hpp:109-111 -/
def It.advance (m : Mem) (it : It) (lower_bound : Nat) : Res It :=
  It.advance_loop m lower_bound (it.end_ - it.begin_ + 1) it

/-- s_sequence.hpp:152-154 -/
def It.skip_position (it : It) : Nat := it.begin_ + associativity
/-- s_sequence.hpp:156-158 -/
def It.skip_header (it : It) : Nat := it.header + 8 * associativity

/-- s_sequence.hpp:115-118 / 129-132: jump over a group of chunks using the current pointer -/
def It.jump (m : Mem) (it : It) : Res It := do
  let o ← rd32 m (it.pointers + 4)
  return { it with
    data := it.data + o
    pointers := it.pointers + 8
    header := it.skip_header
    begin_ := it.skip_position }

/-- s_sequence.hpp:113-121, the jump loop of `skip_to_value` -/
def It.skip_value_loop (m : Mem) (lower_bound : Nat) : (fuel : Nat) → It → Res It
  | 0, _ => .error .diverge
  | f + 1, it =>
    if it.skip_position < it.end_ then do
      let h ← rd16 m it.skip_header
      if h ≤ lower_bound then do
        let it ← it.jump m
        It.skip_value_loop m lower_bound f it
      else return it
    else return it

/-- s_sequence.hpp:113-121 -/
def It.skip_to_value (m : Mem) (it : It) (lower_bound : Nat) : Res It := do
  let it ← It.skip_value_loop m lower_bound (it.end_ - it.begin_ + 1) it
  it.advance m lower_bound

/-- s_sequence.hpp:125-133, the jump loop of `skip_to_position` -/
def It.skip_position_loop (m : Mem) (rank : Nat) : (fuel : Nat) → It → Nat → Res (It × Nat)
  | 0, _, _ => .error .diverge
  | f + 1, it, elements =>
    if it.skip_position < it.end_ then do
      let c ← rd32 m it.pointers
      if u32 (elements + c) > rank then return (it, elements)
      else do
        let it ← it.jump m
        It.skip_position_loop m rank f it (u32 (elements + c))
    else return (it, elements)

/-- s_sequence.hpp:135-140, the chunk loop of `skip_to_position` -/
def It.advance_position_loop (m : Mem) (rank : Nat) : (fuel : Nat) → It → Nat → Res (It × Nat)
  | 0, _, _ => .error .diverge
  | f + 1, it, elements =>
    if it.has_next then do
      let c ← it.cardinality m
      if u32 (elements + c) > rank then return (it, elements)
      else do
        let it ← it.next m
        It.advance_position_loop m rank f it (u32 (elements + c))
    else return (it, elements)

/-- s_sequence.hpp:123-143; returns the moved iterator and `elements` -/
def It.skip_to_position (m : Mem) (it : It) (rank : Nat) : Res (It × Nat) := do
  let (it, elements) ← It.skip_position_loop m rank (it.end_ - it.begin_ + 1) it 0
  It.advance_position_loop m rank (it.end_ - it.begin_ + 1) it elements

end Sliced
