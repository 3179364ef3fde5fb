import Verif.Model.Decode
/-! # enumerator.hpp -/
namespace Sliced

/-- enumerator.hpp:45-52, the members of `enumerator` -/
structure Enum where
  it : It
  chunk : Nat
  chunks : Nat
  i : Nat
  cardinality : Nat
  past_the_end : Nat
  has_next : Bool
  buf : List Nat

/-- enumerator.hpp:12-21 `init`; `buf` is the member `m_buf` (65536 slots after construction,
enumerator.hpp:8-10, contents left over from earlier use). -/
def Enum.init (dbg : Bool) (m : Mem) (buf : List Nat) (s : SSeq) (past_the_end : Nat) :
    Res Enum := do
  let it := s.begin
  let c ← it.cardinality m
  let (_, buf) ← decode_chunk dbg m it buf 0
  return { it := it, chunk := 0, chunks := s.chunks, i := 0, cardinality := c,
           past_the_end := past_the_end, has_next := true, buf := buf }

/-- enumerator.hpp:27-38 `next` -/
def Enum.next (dbg : Bool) (m : Mem) (e : Enum) : Res Enum :=
  let i := u32 (e.i + 1)
  if i = e.cardinality then
    let chunk := u32 (e.chunk + 1)
    if chunk = e.chunks then
      return { e with i := i, chunk := chunk, has_next := false }
    else do
      let it ← e.it.next m
      let c ← it.cardinality m
      let (_, buf) ← decode_chunk dbg m it e.buf 0
      return { e with i := 0, chunk := chunk, it := it, cardinality := c, buf := buf }
  else return { e with i := i }

/-- enumerator.hpp:40-42 `value` (`has_next()`, lines 23-25, is the field) -/
def Enum.value (e : Enum) : Res Nat :=
  if e.has_next then rdv e.buf e.i else .ok e.past_the_end

/-- The loop `while (e.has_next()) { out.push_back(e.value()); e.next(); }` of
test_intersect_many.cpp:41-44 and test_union_many.cpp:54-57 -/
def Enum.collect (dbg : Bool) (m : Mem) : (fuel : Nat) → Enum → Res (List Nat)
  | 0, _ => .error .diverge
  | fuel + 1, e =>
    if e.has_next then do
      let v ← e.value
      let e ← e.next dbg m
      let r ← Enum.collect dbg m fuel e
      return v :: r
    else .ok []

end Sliced
