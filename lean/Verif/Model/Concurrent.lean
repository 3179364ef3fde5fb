import Verif.Model.Union
/-!
# Two calls at the same time

`pairwise_union` and `pairwise_intersection` keep scratch space in function-local `static` objects,
which all calls share.  Here the two functions are written once more, as programs that say in which
step they touch the shared objects; everything else a call uses (arguments, iterators, the output
buffer) belongs to the call alone.  A step is one phase: clearing or copying into the scratch
object, setting bits in it, or reading it while producing output.  (Real code interleaves at the
level of single loads and stores, and a data race is undefined behaviour anyway; phases are enough to
show what goes wrong.)  `Verif/Proof/Concurrent.lean` proves that a program that runs alone is the
function it was copied from.
-/
namespace Sliced

/-- A call in progress: finished, failed, or about to do a step on the shared state `σ` and to
continue with what the step returned. -/
inductive Prog (σ α : Type) : Type 1 where
  | ret (a : α)
  | fail (e : Err)
  | act (β : Type) (f : σ → Res (β × σ)) (k : β → Prog σ α)

def Prog.bind {σ α β : Type} : Prog σ α → (α → Prog σ β) → Prog σ β
  | .ret a, g => g a
  | .fail e, _ => .fail e
  | .act γ f k, g => .act γ f (fun b => (k b).bind g)

instance (σ : Type) : Monad (Prog σ) where
  pure := .ret
  bind := Prog.bind

/-- code that does not touch the shared state -/
def Prog.lift {σ α : Type} : Res α → Prog σ α
  | .ok a => .ret a
  | .error e => .fail e

/-- a step that writes the shared state -/
def Prog.write {σ : Type} (f : σ → Res σ) : Prog σ Unit :=
  .act Unit (fun s => (fun s' => ((), s')) <$> f s) .ret

/-- a step that reads the shared state -/
def Prog.read {σ α : Type} (f : σ → Res α) : Prog σ α :=
  .act α (fun s => (fun a => (a, s)) <$> f s) .ret

/-- running a call without interruption -/
def Prog.run {σ α : Type} : Prog σ α → σ → Res (α × σ)
  | .ret a, s => .ok (a, s)
  | .fail e, _ => .error e
  | .act _ f k, s => f s >>= fun p => (k p.1).run p.2

/-- one step of a call (none if it has finished) -/
def Prog.step {σ α : Type} : Prog σ α → σ → Except Err (Prog σ α × σ)
  | .ret a, s => .ok (.ret a, s)
  | .fail e, _ => .error e
  | .act _ f k, s => match f s with
    | .ok p => .ok (k p.1, p.2)
    | .error e => .error e

/-- Two calls under a schedule: `true` is a step of the first, `false` one of the second. -/
def interleave {σ α β : Type} : List Bool → Prog σ α → Prog σ β → σ →
    Except Err (Prog σ α × Prog σ β × σ)
  | [], A, B, s => .ok (A, B, s)
  | true :: t, A, B, s => match A.step s with
    | .ok p => interleave t p.1 B p.2
    | .error e => .error e
  | false :: t, A, B, s => match B.step s with
    | .ok p => interleave t A p.1 p.2
    | .error e => .error e

/-- Any number of calls; the schedule says whose turn it is. -/
def schedule {σ α : Type} : List Nat → List (Prog σ α) → σ → Except Err (List (Prog σ α) × σ)
  | [], ps, s => .ok (ps, s)
  | i :: t, ps, s => match ps[i]? with
    | none => schedule t ps s
    | some p => match p.step s with
      | .ok q => schedule t (ps.set i q.1) q.2
      | .error e => .error e

/-- a call that uses the first half of the shared state -/
def Prog.onFst {σ τ α : Type} : Prog σ α → Prog (σ × τ) α
  | .ret a => .ret a
  | .fail e => .fail e
  | .act β f k => .act β (fun s => (fun p => (p.1, (p.2, s.2))) <$> f s.1) (fun b => (k b).onFst)

/-- a call that uses the second half of the shared state -/
def Prog.onSnd {σ τ α : Type} : Prog τ α → Prog (σ × τ) α
  | .ret a => .ret a
  | .fail e => .fail e
  | .act β f k => .act β (fun s => (fun p => (p.1, (s.1, p.2))) <$> f s.2) (fun b => (k b).onSnd)

/-! ## pairwise_union -/

/-- union.hpp:62-69 -/
def ds_union_block_prog (m : Mem) (l r cardinality base : Nat) (buf : List Nat) (out : Nat) :
    Prog UScratch (Nat × List Nat) := do
  .write (fun s => (fun x => { s with x4 := x }) <$> memcpy_words (memWords m l)
    (block_size / 8 / 8) 0 s.x4 0)
  .write (fun s => (fun x => { s with x4 := x }) <$> uncompress_sparse_block m r cardinality s.x4 0)
  .read (fun s => or_bitmaps (memWords m l) (vecWords s.x4) block_size_in_64bit_words base buf out)

/-- union.hpp:122-140 -/
def union_blocks_prog (dbg : Bool) (m : Mem) (data_l data_r cl cr b : Nat) (buf : List Nat)
    (out : Nat) : Prog UScratch (Nat × List Nat) :=
  let k := block_pair (block_type cl) (block_type cr)
  if k = block_pair type_sparse type_sparse then
    .lift (ss_union_block dbg m data_l data_r cl cr b buf out)
  else if k = block_pair type_sparse type_dense then
    ds_union_block_prog m data_r data_l cl b buf out
  else if k = block_pair type_dense type_sparse then
    ds_union_block_prog m data_l data_r cr b buf out
  else if k = block_pair type_dense type_dense then
    .lift (or_bitmaps (memWords m data_l) (memWords m data_r) block_size_in_64bit_words b buf out)
  else .lift (unreachable dbg)

/-- State of the loops of `ss_union_chunk`, without the static array. -/
structure UPos where
  l : Nat
  data_l : Nat
  r : Nat
  data_r : Nat
  out : Nat
  buf : List Nat

/-- union.hpp:91-150 -/
def ss_union_chunk_loop_prog (dbg : Bool) (m : Mem) (end_l end_r base : Nat) :
    (fuel : Nat) → UPos → Prog UScratch UPos
  | 0, _ => .lift (.error .diverge)
  | f + 1, s => do
    let x ← .lift (rd8 m s.l)
    let y ← .lift (rd8 m s.r)
    if x < y then do
      let (out, buf, data_l, l) ← .lift (decode_macro m base s.l s.data_l s.buf s.out)
      let s := { s with l := l, data_l := data_l, out := out, buf := buf }
      if s.l = end_l then return s else ss_union_chunk_loop_prog dbg m end_l end_r base f s
    else if x > y then do
      let (out, buf, data_r, r) ← .lift (decode_macro m base s.r s.data_r s.buf s.out)
      let s := { s with r := r, data_r := data_r, out := out, buf := buf }
      if s.r = end_r then return s else ss_union_chunk_loop_prog dbg m end_l end_r base f s
    else do
      let id := x
      let cl1 ← .lift (rd8 m (s.l + 1))
      let cr1 ← .lift (rd8 m (s.r + 1))
      let cl := cl1 + 1
      let cr := cr1 + 1
      let b := u32 (base + id * 256)
      let (n, buf) ← union_blocks_prog dbg m s.data_l s.data_r cl cr b s.buf s.out
      let s := { l := s.l + 2, data_l := s.data_l + bytes_by_cardinality cl,
                 r := s.r + 2, data_r := s.data_r + bytes_by_cardinality cr,
                 out := s.out + n, buf := buf }
      if s.l = end_l ∨ s.r = end_r then return s
      else ss_union_chunk_loop_prog dbg m end_l end_r base f s

/-- union.hpp:80-156 -/
def ss_union_chunk_prog (dbg : Bool) (m : Mem) (l r blocks_l blocks_r base : Nat) (buf : List Nat)
    (out : Nat) : Prog UScratch (Nat × List Nat) := do
  .lift (cassert dbg (blocks_l ≥ 1 && blocks_l ≤ 256))
  .lift (cassert dbg (blocks_r ≥ 1 && blocks_r ≤ 256))
  let end_l := l + blocks_l * 2
  let end_r := r + blocks_r * 2
  let s ← ss_union_chunk_loop_prog dbg m end_l end_r base (blocks_l + blocks_r + 1)
    { l := l, data_l := end_l, r := r, data_r := end_r, out := out, buf := buf }
  let (o, buf) ← .lift (decode_rest m end_l base (blocks_l + 1) s.l s.data_l s.buf s.out)
  let (o, buf) ← .lift (decode_rest m end_r base (blocks_r + 1) s.r s.data_r buf o)
  return (o - out, buf)

/-- union.hpp:158-165 -/
def ds_union_chunk_prog (dbg : Bool) (m : Mem) (l r blocks_r base : Nat) (buf : List Nat)
    (out : Nat) : Prog UScratch (Nat × List Nat) := do
  .write (fun s => .ok { s with x := List.replicate s.x.length 0 })
  .write (fun s => (fun x => { s with x := x }) <$> uncompress_sparse_chunk dbg m r blocks_r s.x 0)
  .read (fun s => or_bitmaps (memWords m l) (vecWords s.x) chunk_size_in_64bit_words base buf out)

/-- union.hpp:177-228 -/
def union_chunks_prog (dbg : Bool) (m : Mem) (it_l it_r : It) (base : Nat) (buf : List Nat)
    (out : Nat) : Prog UScratch (Nat × List Nat) := do
  let type_l ← .lift (it_l.type m)
  let type_r ← .lift (it_r.type m)
  let k := chunk_pair type_l type_r
  let full := .lift (decode_full_chunk base buf out)
  if k = chunk_pair type_sparse type_sparse then do
    let blocks_l ← .lift (it_l.blocks m)
    let blocks_r ← .lift (it_r.blocks m)
    if blocks_l < blocks_r then
      ss_union_chunk_prog dbg m it_l.data it_r.data blocks_l blocks_r base buf out
    else
      ss_union_chunk_prog dbg m it_r.data it_l.data blocks_r blocks_l base buf out
  else if k = chunk_pair type_sparse type_dense then do
    let blocks_l ← .lift (it_l.blocks m)
    ds_union_chunk_prog dbg m it_r.data it_l.data blocks_l base buf out
  else if k = chunk_pair type_sparse type_full then full
  else if k = chunk_pair type_dense type_sparse then do
    let blocks_r ← .lift (it_r.blocks m)
    ds_union_chunk_prog dbg m it_l.data it_r.data blocks_r base buf out
  else if k = chunk_pair type_dense type_dense then
    .lift (or_bitmaps (memWords m it_l.data) (memWords m it_r.data) chunk_size_in_64bit_words base
      buf out)
  else if k = chunk_pair type_dense type_full then full
  else if k = chunk_pair type_full type_sparse then full
  else if k = chunk_pair type_full type_dense then full
  else if k = chunk_pair type_full type_full then full
  else .lift (unreachable dbg)

/-- union.hpp:172-245 -/
def pairwise_union_loop_prog (dbg : Bool) (m : Mem) :
    (fuel : Nat) → (it_l it_r : It) → (buf : List Nat) → (out : Nat) →
    Prog UScratch (It × It × Nat × List Nat)
  | 0, _, _, _, _ => .lift (.error .diverge)
  | f + 1, it_l, it_r, buf, out => do
    let i_l ← .lift (it_l.id m)
    let i_r ← .lift (it_r.id m)
    let id_l := u16 i_l
    let id_r := u16 i_r
    if id_l = id_r then do
      let base := u32 (id_l * 65536)
      let (n, buf) ← union_chunks_prog dbg m it_l it_r base buf out
      let it_l ← .lift (it_l.next m)
      let it_r ← .lift (it_r.next m)
      if !it_l.has_next || !it_r.has_next then return (it_l, it_r, out + n, buf)
      else pairwise_union_loop_prog dbg m f it_l it_r buf (out + n)
    else if id_l < id_r then do
      let (n, buf) ← .lift (decode_chunk dbg m it_l buf out)
      let it_l ← .lift (it_l.next m)
      if !it_l.has_next then return (it_l, it_r, out + n, buf)
      else pairwise_union_loop_prog dbg m f it_l it_r buf (out + n)
    else do
      let (n, buf) ← .lift (decode_chunk dbg m it_r buf out)
      let it_r ← .lift (it_r.next m)
      if !it_r.has_next then return (it_l, it_r, out + n, buf)
      else pairwise_union_loop_prog dbg m f it_l it_r buf (out + n)

/-- union.hpp:167-258 -/
def pairwise_union_prog (dbg : Bool) (m : Mem) (l r : SSeq) (buf : List Nat) (out : Nat := 0) :
    Prog UScratch (Nat × List Nat) := do
  let (it_l, it_r, o, buf) ← pairwise_union_loop_prog dbg m (l.chunks + r.chunks + 1) l.begin
    r.begin buf out
  let (o, buf) ← .lift (decode_tail dbg m (l.chunks + 1) it_l buf o)
  let (o, buf) ← .lift (decode_tail dbg m (r.chunks + 1) it_r buf o)
  return (o - out, buf)

/-! ## pairwise_intersection -/

/-- intersection.hpp:185-192 -/
def ds_intersect_chunk_prog (dbg : Bool) (m : Mem) (l r blocks_r base : Nat) (buf : List Nat)
    (out : Nat) : Prog (List Nat) (Nat × List Nat) := do
  .write (fun x => .ok (List.replicate x.length 0))
  .write (fun x => uncompress_sparse_chunk dbg m r blocks_r x 0)
  .read (fun x => and_bitmaps (memWords m l) (vecWords x) chunk_size_in_64bit_words base buf out)

/-- intersection.hpp:204-261 -/
def intersect_chunks_prog (dbg : Bool) (tab : Nat → List Nat) (m : Mem) (it_l it_r : It) (base : Nat)
    (buf : List Nat) (out : Nat) : Prog (List Nat) (Nat × List Nat) := do
  let type_l ← .lift (it_l.type m)
  let type_r ← .lift (it_r.type m)
  let k := chunk_pair type_l type_r
  if k = chunk_pair type_sparse type_sparse then do
    let blocks_l ← .lift (it_l.blocks m)
    let blocks_r ← .lift (it_r.blocks m)
    if blocks_l < blocks_r then
      .lift (ss_intersect_chunk dbg tab m it_l.data it_r.data blocks_l blocks_r base buf out)
    else
      .lift (ss_intersect_chunk dbg tab m it_r.data it_l.data blocks_r blocks_l base buf out)
  else if k = chunk_pair type_sparse type_dense then do
    let blocks_l ← .lift (it_l.blocks m)
    ds_intersect_chunk_prog dbg m it_r.data it_l.data blocks_l base buf out
  else if k = chunk_pair type_sparse type_full then do
    let blocks_l ← .lift (it_l.blocks m)
    .lift (decode_sparse_chunk dbg m it_l.data blocks_l base buf out)
  else if k = chunk_pair type_dense type_sparse then do
    let blocks_r ← .lift (it_r.blocks m)
    ds_intersect_chunk_prog dbg m it_l.data it_r.data blocks_r base buf out
  else if k = chunk_pair type_dense type_dense then
    .lift (and_bitmaps (memWords m it_l.data) (memWords m it_r.data) chunk_size_in_64bit_words base
      buf out)
  else if k = chunk_pair type_dense type_full then
    .lift (decode_bitmap (memWords m it_l.data) chunk_size_in_64bit_words base buf out)
  else if k = chunk_pair type_full type_sparse then do
    let blocks_r ← .lift (it_r.blocks m)
    .lift (decode_sparse_chunk dbg m it_r.data blocks_r base buf out)
  else if k = chunk_pair type_full type_dense then
    .lift (decode_bitmap (memWords m it_r.data) chunk_size_in_64bit_words base buf out)
  else if k = chunk_pair type_full type_full then
    .lift (decode_full_chunk base buf out)
  else .lift (unreachable dbg)

/-- intersection.hpp:199-272 -/
def pairwise_intersection_loop_prog (dbg : Bool) (tab : Nat → List Nat) (m : Mem) :
    (fuel : Nat) → (it_l it_r : It) → (buf : List Nat) → (out : Nat) →
    Prog (List Nat) (Nat × List Nat)
  | 0, _, _, _, _ => .lift (.error .diverge)
  | f + 1, it_l, it_r, buf, out =>
    if it_l.has_next && it_r.has_next then do
      let i_l ← .lift (it_l.id m)
      let i_r ← .lift (it_r.id m)
      let id_l := u16 i_l
      let id_r := u16 i_r
      if id_l = id_r then do
        let base := u32 (id_l * 65536)
        let (n, buf) ← intersect_chunks_prog dbg tab m it_l it_r base buf out
        let it_l ← .lift (it_l.next m)
        let it_r ← .lift (it_r.next m)
        pairwise_intersection_loop_prog dbg tab m f it_l it_r buf (out + n)
      else if id_l < id_r then do
        let it_l ← .lift (it_l.advance m id_r)
        pairwise_intersection_loop_prog dbg tab m f it_l it_r buf out
      else do
        let it_r ← .lift (it_r.advance m id_l)
        pairwise_intersection_loop_prog dbg tab m f it_l it_r buf out
    else return (out, buf)

/-- intersection.hpp:194-274 -/
def pairwise_intersection_prog (dbg : Bool) (tab : Nat → List Nat) (m : Mem) (l r : SSeq)
    (buf : List Nat) (out : Nat := 0) : Prog (List Nat) (Nat × List Nat) := do
  let (q, buf) ← pairwise_intersection_loop_prog dbg tab m (l.chunks + r.chunks + 1) l.begin r.begin
    buf out
  return (q - out, buf)

end Sliced
