import Verif.Proof.GeqEnum
/-!
# next_geq_enumerator.hpp with counters

The functions of s_sequence.hpp:109-121 and next_geq_enumerator.hpp:23-110 once more, with three counters:
how often the iterator jumps over 32 slices, how often it moves to the next slice, and how often the
cached position in a sparse slice moves to the next block.  Without the counters they are the functions of
the model (`next_geqC_erase`).
-/
namespace Sliced

/-- the counters -/
structure Moves where
  jumps : Nat
  steps : Nat
  blocks : Nat
  deriving DecidableEq, Repr

instance : Add Moves := ⟨fun a b => ⟨a.jumps + b.jumps, a.steps + b.steps, a.blocks + b.blocks⟩⟩

/-- code that counts -/
def Cnt (α : Type) : Type := Res (α × Moves)

def Cnt.bind {α β : Type} (x : Cnt α) (f : α → Cnt β) : Cnt β :=
  match x with
  | .error e => .error e
  | .ok (a, w) =>
    match f a with
    | .error e => .error e
    | .ok (b, w') => .ok (b, w + w')

instance : Monad Cnt where
  pure a := .ok (a, ⟨0, 0, 0⟩)
  bind := Cnt.bind

/-- code that does not count -/
def Cnt.lift {α : Type} (r : Res α) : Cnt α := r.map (fun a => (a, ⟨0, 0, 0⟩))

/-- counting -/
def Cnt.tick (w : Moves) : Cnt Unit := .ok ((), w)

/-- without the counters -/
def Cnt.erase {α : Type} (x : Cnt α) : Res α := Except.map Prod.fst x

/-- s_sequence.hpp:113-121, the jumps -/
def It.skip_value_loopC (m : Mem) (lower_bound : Nat) : (fuel : Nat) → It → Cnt It
  | 0, _ => .lift (.error .diverge)
  | f + 1, it =>
    if it.skip_position < it.end_ then do
      let h ← .lift (rd16 m it.skip_header)
      if h ≤ lower_bound then do
        .tick ⟨1, 0, 0⟩
        let it ← .lift (it.jump m)
        It.skip_value_loopC m lower_bound f it
      else return it
    else return it

/-- s_sequence.hpp:109-111 -/
def It.advance_loopC (m : Mem) (lower_bound : Nat) : (fuel : Nat) → It → Cnt It
  | 0, _ => .lift (.error .diverge)
  | f + 1, it => do
    let i ← .lift (it.id m)
    if i < lower_bound && it.has_next then do
      .tick ⟨0, 1, 0⟩
      let it ← .lift (it.next m)
      It.advance_loopC m lower_bound f it
    else return it

/-- s_sequence.hpp:113-121 -/
def It.skip_to_valueC (m : Mem) (it : It) (lower_bound : Nat) : Cnt It := do
  let it ← It.skip_value_loopC m lower_bound (it.end_ - it.begin_ + 1) it
  It.advance_loopC m lower_bound (it.end_ - it.begin_ + 1) it

/-- next_geq_enumerator.hpp:46-51 -/
def skip_blocksC (m : Mem) (block_id end_ : Nat) :
    (fuel : Nat) → (begin data id : Nat) → Cnt (Nat × Nat × Nat)
  | 0, _, _, _ => .lift (.error .diverge)
  | f + 1, begin, data, id =>
    if id < block_id ∧ begin ≠ end_ then do
      .tick ⟨0, 0, 1⟩
      let c1 ← .lift (rd8 m (begin + 1))
      let data := data + bytes_by_cardinality (c1 + 1)
      let begin := begin + 2
      let id ← .lift (rd8 m begin)
      skip_blocksC m block_id end_ f begin data id
    else return (begin, data, id)

/-- next_geq_enumerator.hpp:36-44: the cached position is set if the slice is another one -/
def GeqEnum.cacheC (dbg : Bool) (m : Mem) (e : GeqEnum) : Res GeqEnum := do
  let cid ← e.it.id m
  if e.chunk_id ≠ cid then do
    let blocks ← e.it.blocks m
    cassert dbg (blocks ≥ 1 && blocks ≤ 256)
    let id ← rd8 m e.it.data
    pure { e with begin_ := e.it.data, data := e.it.data + blocks * 2,
                  end_ := e.it.data + blocks * 2, id := id, chunk_id := cid }
  else pure e

/-- next_geq_enumerator.hpp:53-89 -/
def GeqEnum.inBlockC (m : Mem) (e : GeqEnum) (value : Nat) : Cnt (GeqEnum × Nat) :=
  if e.begin_ ≠ e.end_ then do
    if e.id * 256 ≥ value then do
      let v ← .lift (block_min m e.begin_ e.data (e.id * 256))
      return (e, v)
    else do
      let mx ← .lift (max_value_in_block m e.begin_ e.data)
      if value % 256 > mx then
        if e.begin_ + 2 = e.end_ then return (e, not_found)
        else do
          .tick ⟨0, 0, 1⟩
          let c1 ← .lift (rd8 m (e.begin_ + 1))
          let id ← .lift (rd8 m (e.begin_ + 2))
          let e := { e with data := e.data + bytes_by_cardinality (c1 + 1), begin_ := e.begin_ + 2,
                            id := id }
          let v ← .lift (block_min m e.begin_ e.data (e.id * 256))
          return (e, v)
      else do
        let c1 ← .lift (rd8 m (e.begin_ + 1))
        if c1 + 1 < 31 then do
          let x ← .lift (next_geq_sparse_block m e.data (c1 + 1) (value % 256))
          return (e, u32 (x + e.id * 256))
        else do
          let x ← .lift (next_geq_bitmap (memWords m e.data) block_size_in_64bit_words (value % 256))
          return (e, u32 (x + e.id * 256))
  else return (e, not_found)

/-- next_geq_enumerator.hpp:34-90 -/
def GeqEnum.sparse_caseC (dbg : Bool) (m : Mem) (e : GeqEnum) (value : Nat) : Cnt (GeqEnum × Nat) := do
  let e ← .lift (e.cacheC dbg m)
  let p ← skip_blocksC m (value / 256) e.end_ (e.end_ - e.begin_ + 1) e.begin_ e.data e.id
  GeqEnum.inBlockC m { e with begin_ := p.1, data := p.2.1, id := p.2.2 } value

/-- next_geq_enumerator.hpp:33-100 -/
def GeqEnum.inSliceC (dbg : Bool) (m : Mem) (e : GeqEnum) (value : Nat) : Cnt (GeqEnum × Nat) := do
  let t ← .lift (e.it.type m)
  if t = type_sparse then e.sparse_caseC dbg m value
  else if t = type_dense then do
    let v ← .lift (next_geq_bitmap (memWords m e.it.data) chunk_size_in_64bit_words value)
    return (e, v)
  else if t = type_full then return (e, value)
  else .lift (unreachable dbg)

/-- next_geq_enumerator.hpp:23-110 -/
def GeqEnum.next_geqC (dbg : Bool) (m : Mem) (e : GeqEnum) (value : Nat) : Cnt (GeqEnum × Nat) := do
  let it ← e.it.skip_to_valueC m (value / 65536)
  let e := { e with it := it }
  let b ← .lift (e.it.base m)
  if b ≥ value then do
    let v ← .lift (chunk_min dbg m e.it)
    return (e, v)
  else if e.it.has_next then do
    let p ← e.inSliceC dbg m (value % 65536)
    if p.2 ≠ not_found then do
      let b ← .lift (p.1.it.base m)
      return (p.1, u32 (p.2 + b))
    else do
      .tick ⟨0, 1, 0⟩
      let it ← .lift (p.1.it.next m)
      let e := { p.1 with it := it }
      if e.it.has_next then do
        let v ← .lift (chunk_min dbg m e.it)
        return (e, v)
      else return (e, not_found)
  else return (e, not_found)

/-- a history of calls: the answers, and the moves of all calls together -/
def GeqEnum.runC (dbg : Bool) (m : Mem) : GeqEnum → List Nat → Cnt (List Nat)
  | _, [] => return []
  | e, v :: vs => do
    let p ← e.next_geqC dbg m v
    let rest ← GeqEnum.runC dbg m p.1 vs
    return p.2 :: rest

/-- the same, as an outcome: the answers and the moves -/
def GeqEnum.runMoves (dbg : Bool) (m : Mem) (e : GeqEnum) (vs : List Nat) : Res (List Nat × Moves) :=
  e.runC dbg m vs

/-! ## Without the counters -/

theorem erase_lift {α : Type} (r : Res α) : (Cnt.lift r).erase = r := by cases r <;> rfl

theorem erase_pure {α : Type} (a : α) : (pure a : Cnt α).erase = pure a := rfl

theorem erase_tick (w : Moves) : (Cnt.tick w).erase = pure () := rfl

theorem erase_bind {α β : Type} (x : Cnt α) (f : α → Cnt β) :
    (x >>= f).erase = x.erase >>= fun a => (f a).erase := by
  show (Cnt.bind x f).erase = _
  cases x with
  | error e => rfl
  | ok p =>
    obtain ⟨a, w⟩ := p
    show _ = (f a).erase
    unfold Cnt.bind
    simp only
    cases f a with
    | error e => rfl
    | ok q => rfl

theorem erase_ite {α : Type} (c : Prop) [Decidable c] (x y : Cnt α) :
    (if c then x else y).erase = if c then x.erase else y.erase := by
  by_cases h : c
  · rw [if_pos h, if_pos h]
  · rw [if_neg h, if_neg h]

theorem skip_value_loopC_erase (m : Mem) (lb f : Nat) (it : It) :
    (It.skip_value_loopC m lb f it).erase = It.skip_value_loop m lb f it := by
  induction f generalizing it with
  | zero => rfl
  | succ f ih =>
    unfold It.skip_value_loopC It.skip_value_loop
    simp only [erase_ite, erase_bind, erase_lift, erase_pure, erase_tick, pure_bind, ih]

theorem advance_loopC_erase (m : Mem) (lb f : Nat) (it : It) :
    (It.advance_loopC m lb f it).erase = It.advance_loop m lb f it := by
  induction f generalizing it with
  | zero => rfl
  | succ f ih =>
    unfold It.advance_loopC It.advance_loop
    simp only [erase_ite, erase_bind, erase_lift, erase_pure, erase_tick, pure_bind, ih]

theorem skip_to_valueC_erase (m : Mem) (it : It) (lb : Nat) :
    (it.skip_to_valueC m lb).erase = it.skip_to_value m lb := by
  unfold It.skip_to_valueC It.skip_to_value It.advance
  simp only [erase_bind, skip_value_loopC_erase, advance_loopC_erase]

theorem skip_blocksC_erase (m : Mem) (b en f p d i : Nat) :
    (skip_blocksC m b en f p d i).erase = skip_blocks m b en f p d i := by
  induction f generalizing p d i with
  | zero => rfl
  | succ f ih =>
    unfold skip_blocksC skip_blocks
    simp only [erase_ite, erase_bind, erase_lift, erase_pure, erase_tick, pure_bind, ih]
    rfl

theorem sparse_caseC_erase (dbg : Bool) (m : Mem) (e : GeqEnum) (value : Nat) :
    (e.sparse_caseC dbg m value).erase = e.sparse_case dbg m value := by
  unfold GeqEnum.sparse_caseC GeqEnum.sparse_case GeqEnum.inBlockC GeqEnum.cacheC
  simp only [erase_ite, erase_bind, erase_lift, erase_pure, erase_tick, pure_bind, skip_blocksC_erase,
    bind_assoc]
  refine congrArg (bind _) (funext fun x => ?_)
  by_cases h : e.chunk_id ≠ x
  · simp only [if_pos h, bind_assoc, pure_bind]
  · simp only [if_neg h, pure_bind]

theorem next_geqC_erase (dbg : Bool) (m : Mem) (e : GeqEnum) (value : Nat) :
    (e.next_geqC dbg m value).erase = e.next_geq dbg m value := by
  unfold GeqEnum.next_geqC GeqEnum.next_geq GeqEnum.inSliceC
  simp only [erase_ite, erase_bind, erase_lift, erase_pure, erase_tick, pure_bind, sparse_caseC_erase,
    skip_to_valueC_erase, bind_assoc]
  refine congrArg (bind _) (funext fun it => ?_)
  refine congrArg (bind _) (funext fun b => ?_)
  by_cases h1 : b ≥ value
  · simp only [if_pos h1]
  simp only [if_neg h1]
  by_cases h2 : it.has_next = true
  · simp only [if_pos h2]
    refine congrArg (bind _) (funext fun t => ?_)
    by_cases h3 : t = type_sparse
    · simp only [if_pos h3]
    simp only [if_neg h3]
    by_cases h4 : t = type_dense
    · simp only [if_pos h4, bind_assoc, pure_bind]
    simp only [if_neg h4]
    by_cases h5 : t = type_full
    · simp only [if_pos h5, pure_bind]
    simp only [if_neg h5]
  · simp only [if_neg h2]

theorem runC_erase (dbg : Bool) (m : Mem) (e : GeqEnum) (vs : List Nat) :
    (e.runC dbg m vs).erase = e.run dbg m vs := by
  induction vs generalizing e with
  | nil => rfl
  | cons v vs ih =>
    unfold GeqEnum.runC GeqEnum.run
    simp only [erase_bind, erase_pure, next_geqC_erase, ih]

/-! ## What a call moves -/

/-- the code ends with the value `a` and has counted `w` -/
def Cnt.Gives {α : Type} (x : Cnt α) (a : α) (w : Moves) : Prop :=
  x = (Except.ok (a, w) : Except Err (α × Moves))

theorem gives_bind {α β : Type} {x : Cnt α} {f : α → Cnt β} {b : β} {w : Moves}
    (h : (x >>= f).Gives b w) :
    ∃ a w1 w2, x.Gives a w1 ∧ (f a).Gives b w2 ∧ w = w1 + w2 := by
  have h : Cnt.bind x f = (Except.ok (b, w) : Except Err (β × Moves)) := h
  unfold Cnt.bind at h
  cases hx : (x : Except Err (α × Moves)) with
  | error e => rw [hx] at h; cases h
  | ok p =>
    obtain ⟨a, w1⟩ := p
    rw [hx] at h
    simp only at h
    cases hf : (f a : Except Err (β × Moves)) with
    | error e => rw [hf] at h; cases h
    | ok q =>
      obtain ⟨b', w2⟩ := q
      rw [hf] at h
      simp only at h
      injection h with h
      injection h with h1 h2
      subst h1
      exact ⟨a, w1, w2, rfl, hf, h2.symm⟩

theorem gives_lift {α : Type} {r : Res α} {a : α} {w : Moves} (h : (Cnt.lift r).Gives a w) :
    r = .ok a ∧ w = ⟨0, 0, 0⟩ := by
  cases r with
  | error e => cases h
  | ok b =>
    have h : (Except.ok (b, ⟨0, 0, 0⟩) : Except Err (α × Moves)) = .ok (a, w) := h
    injection h with h
    injection h with h1 h2
    exact ⟨by rw [h1], h2.symm⟩

theorem gives_pure {α : Type} {a b : α} {w : Moves} (h : (pure a : Cnt α).Gives b w) :
    b = a ∧ w = ⟨0, 0, 0⟩ := by
  have h : (Except.ok (a, ⟨0, 0, 0⟩) : Except Err (α × Moves)) = .ok (b, w) := h
  injection h with h
  injection h with h1 h2
  exact ⟨h1.symm, h2.symm⟩

theorem gives_tick {v w : Moves} {u : Unit} (h : (Cnt.tick v).Gives u w) : w = v := by
  have h : (Except.ok ((), v) : Except Err (Unit × Moves)) = .ok (u, w) := h
  injection h with h
  injection h with h1 h2
  exact h2.symm

theorem moves_add (a b c d e f : Nat) :
    (⟨a, b, c⟩ + ⟨d, e, f⟩ : Moves) = ⟨a + d, b + e, c + f⟩ := rfl

theorem moves_ext {a b : Moves} (h : a.jumps = b.jumps) (g : a.steps = b.steps) (k : a.blocks = b.blocks) :
    a = b := by
  cases a; cases b; simp only at h g k; rw [h, g, k]

/-- the iterator has moved over `n` slices -/
structure Walked (it it' : It) (n : Nat) : Prop where
  begin_ : it'.begin_ = it.begin_ + n
  end_ : it'.end_ = it.end_
  header : it'.header = it.header + 8 * n
  le : it.begin_ ≤ it.end_ → it'.begin_ ≤ it'.end_
  same : n = 0 → it' = it

theorem Walked.refl (it : It) : Walked it it 0 := ⟨rfl, rfl, rfl, id, fun _ => rfl⟩

theorem Walked.trans {a b c : It} {n k : Nat} (h : Walked a b n) (g : Walked b c k) :
    Walked a c (n + k) := by
  refine ⟨?_, g.end_.trans h.end_, ?_, fun x => g.le (h.le x), ?_⟩
  · rw [g.begin_, h.begin_]; omega
  · rw [g.header, h.header]; omega
  · intro x
    rw [g.same (by omega), h.same (by omega)]

theorem Walked.next {m : Mem} {it it' : It} (h : it.next m = .ok it') (hn : it.begin_ < it.end_) :
    Walked it it' 1 := by
  unfold It.next at h
  cases ho : it.offset m with
  | error e => rw [ho] at h; cases h
  | ok o =>
    rw [ho, ok_bind] at h
    injection h with h
    subst h
    exact ⟨rfl, rfl, rfl, fun _ => by simp only; omega, fun x => by omega⟩

theorem Walked.jump {m : Mem} {it it' : It} (h : it.jump m = .ok it') (hn : it.skip_position < it.end_) :
    Walked it it' 32 := by
  unfold It.jump at h
  cases ho : rd32 m (it.pointers + 4) with
  | error e => rw [ho] at h; cases h
  | ok o =>
    rw [ho, ok_bind] at h
    injection h with h
    subst h
    unfold It.skip_position at hn
    exact ⟨rfl, rfl, rfl, fun _ => by simp only [It.skip_position]; omega, fun x => by omega⟩

theorem skip_value_loopC_moved {m : Mem} {lb : Nat} (f : Nat) : ∀ {it it' : It} {w : Moves},
    (It.skip_value_loopC m lb f it).Gives it' w →
    ∃ j, w = ⟨j, 0, 0⟩ ∧ Walked it it' (32 * j) := by
  induction f with
  | zero => intro it it' w h; cases h
  | succ f ih =>
    intro it it' w h
    unfold It.skip_value_loopC at h
    by_cases h1 : it.skip_position < it.end_
    · rw [if_pos h1] at h
      obtain ⟨x, w1, w2, g1, g2, rfl⟩ := gives_bind h
      obtain ⟨-, rfl⟩ := gives_lift g1
      by_cases h2 : x ≤ lb
      · rw [if_pos h2] at g2
        obtain ⟨u, w3, w4, g3, g4, rfl⟩ := gives_bind g2
        obtain rfl := gives_tick g3
        obtain ⟨it1, w5, w6, g5, g6, rfl⟩ := gives_bind g4
        obtain ⟨g5', rfl⟩ := gives_lift g5
        obtain ⟨j, rfl, hm⟩ := ih g6
        refine ⟨j + 1, ?_, ?_⟩
        · exact moves_ext (by simp [moves_add]; try omega) (by simp [moves_add]; try omega) (by simp [moves_add]; try omega)
        · rw [show 32 * (j + 1) = 32 + 32 * j by omega]
          exact (Walked.jump g5' h1).trans hm
      · rw [if_neg h2] at g2
        obtain ⟨rfl, rfl⟩ := gives_pure g2
        exact ⟨0, rfl, Walked.refl _⟩
    · rw [if_neg h1] at h
      obtain ⟨rfl, rfl⟩ := gives_pure h
      exact ⟨0, rfl, Walked.refl _⟩

theorem advance_loopC_moved {m : Mem} {lb : Nat} (f : Nat) : ∀ {it it' : It} {w : Moves},
    (It.advance_loopC m lb f it).Gives it' w →
    ∃ n, w = ⟨0, n, 0⟩ ∧ Walked it it' n := by
  induction f with
  | zero => intro it it' w h; cases h
  | succ f ih =>
    intro it it' w h
    unfold It.advance_loopC at h
    obtain ⟨x, w1, w2, g1, g2, rfl⟩ := gives_bind h
    obtain ⟨-, rfl⟩ := gives_lift g1
    by_cases h2 : (decide (x < lb) && it.has_next) = true
    · rw [if_pos h2] at g2
      obtain ⟨u, w3, w4, g3, g4, rfl⟩ := gives_bind g2
      obtain rfl := gives_tick g3
      obtain ⟨it1, w5, w6, g5, g6, rfl⟩ := gives_bind g4
      obtain ⟨g5', rfl⟩ := gives_lift g5
      obtain ⟨n, rfl, hm⟩ := ih g6
      have hn : it.begin_ < it.end_ := by
        rw [Bool.and_eq_true] at h2
        have := h2.2
        unfold It.has_next at this
        exact of_decide_eq_true this
      refine ⟨n + 1, ?_, ?_⟩
      · exact moves_ext (by simp [moves_add]; try omega) (by simp [moves_add]; try omega) (by simp [moves_add]; try omega)
      · rw [show n + 1 = 1 + n by omega]
        exact (Walked.next g5' hn).trans hm
    · rw [if_neg h2] at g2
      obtain ⟨rfl, rfl⟩ := gives_pure g2
      exact ⟨0, rfl, Walked.refl _⟩

theorem skip_to_valueC_moved {m : Mem} {lb : Nat} {it it' : It} {w : Moves}
    (h : (it.skip_to_valueC m lb).Gives it' w) :
    ∃ j n, w = ⟨j, n, 0⟩ ∧ Walked it it' (32 * j + n) := by
  unfold It.skip_to_valueC at h
  obtain ⟨it1, w1, w2, g1, g2, rfl⟩ := gives_bind h
  obtain ⟨j, rfl, h1⟩ := skip_value_loopC_moved _ g1
  obtain ⟨n, rfl, h2⟩ := advance_loopC_moved _ g2
  refine ⟨j, n, ?_, h1.trans h2⟩
  exact moves_ext (by simp [moves_add]) (by simp [moves_add]) (by simp [moves_add])

theorem skip_blocksC_moved {m : Mem} {b en : Nat} (f : Nat) : ∀ {p d i l : Nat} {q : Nat × Nat × Nat}
    {w : Moves}, (skip_blocksC m b en f p d i).Gives q w → p + 2 * l = en →
    ∃ n l', w = ⟨0, 0, n⟩ ∧ l = l' + n ∧ q.1 + 2 * l' = en := by
  induction f with
  | zero => intro p d i l q w h; cases h
  | succ f ih =>
    intro p d i l q w h hl
    unfold skip_blocksC at h
    by_cases h1 : i < b ∧ p ≠ en
    · rw [if_pos h1] at h
      obtain ⟨u, w3, w4, g3, g4, rfl⟩ := gives_bind h
      obtain rfl := gives_tick g3
      obtain ⟨c, w5, w6, g5, g6, rfl⟩ := gives_bind g4
      obtain ⟨-, rfl⟩ := gives_lift g5
      obtain ⟨c', w7, w8, g7, g8, rfl⟩ := gives_bind g6
      obtain ⟨-, rfl⟩ := gives_lift g7
      have := h1.2
      obtain ⟨n, l', rfl, e1, e2⟩ := ih (l := l - 1) g8 (by omega)
      refine ⟨n + 1, l', ?_, by omega, e2⟩
      exact moves_ext (by simp [moves_add]; try omega) (by simp [moves_add]; try omega) (by simp [moves_add]; try omega)
    · rw [if_neg h1] at h
      obtain ⟨rfl, rfl⟩ := gives_pure h
      exact ⟨0, l, rfl, rfl, hl⟩

theorem inBlockC_moved {m : Mem} {e : GeqEnum} {value l : Nat} {q : GeqEnum × Nat} {w : Moves}
    (h : (e.inBlockC m value).Gives q w) (hl : e.begin_ + 2 * l = e.end_) :
    ∃ n l', w = ⟨0, 0, n⟩ ∧ l = l' + n ∧ q.1.begin_ + 2 * l' = q.1.end_ ∧ q.1.it = e.it ∧
      q.1.chunk_id = e.chunk_id := by
  unfold GeqEnum.inBlockC at h
  by_cases h1 : e.begin_ ≠ e.end_
  · rw [if_pos h1] at h
    by_cases h2 : e.id * 256 ≥ value
    · rw [if_pos h2] at h
      obtain ⟨x, w1, w2, g1, g2, rfl⟩ := gives_bind h
      obtain ⟨-, rfl⟩ := gives_lift g1
      obtain ⟨rfl, rfl⟩ := gives_pure g2
      exact ⟨0, l, rfl, rfl, hl, rfl, rfl⟩
    · rw [if_neg h2] at h
      obtain ⟨mx, w1, w2, g1, g2, rfl⟩ := gives_bind h
      obtain ⟨-, rfl⟩ := gives_lift g1
      by_cases h3 : value % 256 > mx
      · rw [if_pos h3] at g2
        by_cases h4 : e.begin_ + 2 = e.end_
        · rw [if_pos h4] at g2
          obtain ⟨rfl, rfl⟩ := gives_pure g2
          exact ⟨0, l, rfl, rfl, hl, rfl, rfl⟩
        · rw [if_neg h4] at g2
          obtain ⟨u, w3, w4, g3, g4, rfl⟩ := gives_bind g2
          obtain rfl := gives_tick g3
          obtain ⟨c, w5, w6, g5, g6, rfl⟩ := gives_bind g4
          obtain ⟨-, rfl⟩ := gives_lift g5
          obtain ⟨c', w7, w8, g7, g8, rfl⟩ := gives_bind g6
          obtain ⟨-, rfl⟩ := gives_lift g7
          obtain ⟨v, w9, w10, g9, g10, rfl⟩ := gives_bind g8
          obtain ⟨-, rfl⟩ := gives_lift g9
          obtain ⟨rfl, rfl⟩ := gives_pure g10
          refine ⟨1, l - 1, rfl, by omega, ?_, rfl, rfl⟩
          simp only; omega
      · rw [if_neg h3] at g2
        obtain ⟨c, w5, w6, g5, g6, rfl⟩ := gives_bind g2
        obtain ⟨-, rfl⟩ := gives_lift g5
        by_cases h4 : c + 1 < 31
        · rw [if_pos h4] at g6
          obtain ⟨v, w9, w10, g9, g10, rfl⟩ := gives_bind g6
          obtain ⟨-, rfl⟩ := gives_lift g9
          obtain ⟨rfl, rfl⟩ := gives_pure g10
          exact ⟨0, l, rfl, rfl, hl, rfl, rfl⟩
        · rw [if_neg h4] at g6
          obtain ⟨v, w9, w10, g9, g10, rfl⟩ := gives_bind g6
          obtain ⟨-, rfl⟩ := gives_lift g9
          obtain ⟨rfl, rfl⟩ := gives_pure g10
          exact ⟨0, l, rfl, rfl, hl, rfl, rfl⟩
  · rw [if_neg h1] at h
    obtain ⟨rfl, rfl⟩ := gives_pure h
    exact ⟨0, l, rfl, rfl, hl, rfl, rfl⟩

/-! ## Counting the blocks -/

/-- the number of blocks that the header of slice `k` announces, if it says that the slice is sparse -/
def headerBlocks (m : Mem) (s : SSeq) (k : Nat) : Nat :=
  match rd16 m (s.header + 8 * k + 4) with
  | .ok x => if x % 256 = type_sparse then x / 256 + 1 else 0
  | .error _ => 0

/-- the blocks of the slices from `g` on -/
def blocksFrom (m : Mem) (s : SSeq) (g : Nat) : Nat :=
  (((List.range s.chunks).drop g).map (headerBlocks m s)).sum

theorem blocksFrom_succ (m : Mem) (s : SSeq) {g : Nat} (h : g < s.chunks) :
    blocksFrom m s g = headerBlocks m s g + blocksFrom m s (g + 1) := by
  unfold blocksFrom
  rw [List.drop_eq_getElem_cons (by rw [List.length_range]; exact h), List.map_cons, List.sum_cons,
    List.getElem_range]

theorem blocksFrom_mono (m : Mem) (s : SSeq) {g b : Nat} (h : g ≤ b) (hb : b ≤ s.chunks) :
    blocksFrom m s b ≤ blocksFrom m s g := by
  obtain ⟨n, rfl⟩ := Nat.le.dest h
  clear h
  induction n with
  | zero => exact Nat.le_refl _
  | succ n ih =>
    have := ih (by omega)
    rw [blocksFrom_succ m s (show g + n < s.chunks by omega)] at this
    rw [← Nat.add_assoc]
    omega

/-- Between two calls: `l` blocks are left in the cached slice, and the slices from `g` on have not been
cached yet. -/
structure CountInv (m : Mem) (s : SSeq) (e : GeqEnum) (l g : Nat) : Prop where
  header : e.it.header = s.header + 8 * e.it.begin_
  end_ : e.it.end_ = s.chunks
  le : e.it.begin_ ≤ e.it.end_
  left : e.begin_ + 2 * l = e.end_
  paid : g ≤ e.it.begin_ ∨ (g = e.it.begin_ + 1 ∧ e.it.begin_ < e.it.end_ ∧ e.it.id m = .ok e.chunk_id)

theorem CountInv.move {m : Mem} {s : SSeq} {e : GeqEnum} {l g n : Nat} {it : It}
    (h : CountInv m s e l g) (hm : Walked e.it it n) : CountInv m s { e with it := it } l g := by
  refine ⟨?_, hm.end_.trans h.end_, hm.le h.le, h.left, ?_⟩
  · have h1 := hm.header
    have h2 := h.header
    have h3 := hm.begin_
    simp only; omega
  · by_cases hn : n = 0
    · have := hm.same hn
      subst this
      exact h.paid
    · have h3 := hm.begin_
      have := h.paid
      refine Or.inl ?_
      simp only; omega

theorem cacheC_count {dbg : Bool} {m : Mem} {s : SSeq} {e e' : GeqEnum} {l g : Nat}
    (h : CountInv m s e l g) (hn : e.it.begin_ < e.it.end_) (ht : e.it.type m = .ok type_sparse)
    (hc : e.cacheC dbg m = .ok e') :
    ∃ l' g', CountInv m s e' l' g' ∧ l' + blocksFrom m s g' ≤ l + blocksFrom m s g ∧ e'.it = e.it ∧
      e.it.id m = .ok e'.chunk_id := by
  unfold GeqEnum.cacheC at hc
  cases hi : e.it.id m with
  | error x => rw [hi] at hc; cases hc
  | ok cid =>
    rw [hi, ok_bind] at hc
    by_cases h1 : e.chunk_id ≠ cid
    · rw [if_pos h1] at hc
      have hg : g ≤ e.it.begin_ := by
        cases h.paid with
        | inl p => exact p
        | inr p =>
          have := p.2.2
          rw [hi] at this
          injection this with this
          exact absurd this.symm h1
      unfold It.type at ht
      unfold It.blocks at hc
      cases hx : rd16 m (e.it.header + 4) with
      | error x => rw [hx] at ht; cases ht
      | ok x =>
        rw [hx, ok_bind] at ht hc
        injection ht with ht
        have hb : headerBlocks m s e.it.begin_ = x / 256 + 1 := by
          unfold headerBlocks
          rw [← h.header, hx]
          simp only [ht, if_pos]
        have hc : (do
            cassert dbg (decide (x / 256 + 1 ≥ 1) && decide (x / 256 + 1 ≤ 256))
            let id ← rd8 m e.it.data
            pure { e with begin_ := e.it.data, data := e.it.data + (x / 256 + 1) * 2,
                          end_ := e.it.data + (x / 256 + 1) * 2, id := id, chunk_id := cid } : Res GeqEnum)
            = .ok e' := hc
        cases ha : cassert dbg (decide (x / 256 + 1 ≥ 1) && decide (x / 256 + 1 ≤ 256)) with
        | error y => rw [ha] at hc; cases hc
        | ok u =>
          rw [ha, ok_bind] at hc
          cases hr : rd8 m e.it.data with
          | error y => rw [hr] at hc; cases hc
          | ok i =>
            rw [hr, ok_bind] at hc
            injection hc with hc
            subst hc
            refine ⟨x / 256 + 1, e.it.begin_ + 1,
              ⟨h.header, h.end_, h.le, ?_, Or.inr ⟨rfl, hn, hi⟩⟩, ?_, rfl, rfl⟩
            · simp only; omega
            · have h2 := blocksFrom_mono m s hg (by rw [← h.end_]; exact h.le)
              rw [blocksFrom_succ m s (show e.it.begin_ < s.chunks by rw [← h.end_]; exact hn), hb] at h2
              omega
    · rw [if_neg h1] at hc
      injection hc with hc
      subst hc
      exact ⟨l, g, h, Nat.le_refl _, rfl, by rw [Classical.not_not.mp h1]⟩

theorem sparse_caseC_count {dbg : Bool} {m : Mem} {s : SSeq} {e : GeqEnum} {value l g : Nat}
    {q : GeqEnum × Nat} {w : Moves}
    (h : CountInv m s e l g) (hn : e.it.begin_ < e.it.end_) (ht : e.it.type m = .ok type_sparse)
    (hc : (e.sparse_caseC dbg m value).Gives q w) :
    ∃ l' g', CountInv m s q.1 l' g' ∧ l' + blocksFrom m s g' + w.blocks ≤ l + blocksFrom m s g ∧
      q.1.it = e.it ∧ w.jumps = 0 ∧ w.steps = 0 := by
  unfold GeqEnum.sparse_caseC at hc
  obtain ⟨e1, w1, w2, g1, g2, rfl⟩ := gives_bind hc
  obtain ⟨g1', rfl⟩ := gives_lift g1
  obtain ⟨l1, gg, h1, hle, hit, hid⟩ := cacheC_count h hn ht g1'
  obtain ⟨p, w3, w4, g3, g4, rfl⟩ := gives_bind g2
  obtain ⟨n, l2, rfl, e1', e2'⟩ := skip_blocksC_moved _ g3 h1.left
  obtain ⟨n', l3, rfl, e3', e4', e5', e6'⟩ := inBlockC_moved g4 (l := l2) e2'
  have e5'' : q.1.it = e1.it := e5'
  have e6'' : q.1.chunk_id = e1.chunk_id := e6'
  refine ⟨l3, gg, ⟨?_, ?_, ?_, e4', ?_⟩, ?_, e5''.trans hit, rfl, rfl⟩
  · rw [e5'']; exact h1.header
  · rw [e5'']; exact h1.end_
  · rw [e5'']; exact h1.le
  · rw [e5'', e6'']; exact h1.paid
  · have : (⟨0, 0, 0⟩ + (⟨0, 0, n⟩ + ⟨0, 0, n'⟩) : Moves).blocks = n + n' := by
      simp only [moves_add]; omega
    rw [this]; omega

theorem inSliceC_count {dbg : Bool} {m : Mem} {s : SSeq} {e : GeqEnum} {value l g : Nat}
    {q : GeqEnum × Nat} {w : Moves}
    (h : CountInv m s e l g) (hn : e.it.begin_ < e.it.end_)
    (hc : (e.inSliceC dbg m value).Gives q w) :
    ∃ l' g', CountInv m s q.1 l' g' ∧ l' + blocksFrom m s g' + w.blocks ≤ l + blocksFrom m s g ∧
      q.1.it = e.it ∧ w.jumps = 0 ∧ w.steps = 0 := by
  unfold GeqEnum.inSliceC at hc
  obtain ⟨t, w1, w2, g1, g2, rfl⟩ := gives_bind hc
  obtain ⟨g1', rfl⟩ := gives_lift g1
  by_cases h1 : t = type_sparse
  · rw [if_pos h1] at g2
    subst h1
    obtain ⟨l', g', a1, a2, a3, a4, a5⟩ := sparse_caseC_count h hn g1' g2
    refine ⟨l', g', a1, ?_, a3, ?_, ?_⟩
    · show _ + (0 + w2.blocks) ≤ _; omega
    · show 0 + w2.jumps = 0; omega
    · show 0 + w2.steps = 0; omega
  · rw [if_neg h1] at g2
    by_cases h2 : t = type_dense
    · rw [if_pos h2] at g2
      obtain ⟨v, w3, w4, g3, g4, rfl⟩ := gives_bind g2
      obtain ⟨-, rfl⟩ := gives_lift g3
      obtain ⟨rfl, rfl⟩ := gives_pure g4
      exact ⟨l, g, h, Nat.le_refl _, rfl, rfl, rfl⟩
    · rw [if_neg h2] at g2
      by_cases h3 : t = type_full
      · rw [if_pos h3] at g2
        obtain ⟨rfl, rfl⟩ := gives_pure g2
        exact ⟨l, g, h, Nat.le_refl _, rfl, rfl, rfl⟩
      · rw [if_neg h3] at g2
        obtain ⟨g3, -⟩ := gives_lift g2
        unfold unreachable at g3
        cases dbg <;> cases g3

/-- one call -/
theorem next_geqC_count {dbg : Bool} {m : Mem} {s : SSeq} {e : GeqEnum} {value l g : Nat}
    {q : GeqEnum × Nat} {w : Moves}
    (h : CountInv m s e l g) (hc : (e.next_geqC dbg m value).Gives q w) :
    ∃ l' g', CountInv m s q.1 l' g' ∧ l' + blocksFrom m s g' + w.blocks ≤ l + blocksFrom m s g ∧
      q.1.it.begin_ = e.it.begin_ + (32 * w.jumps + w.steps) := by
  unfold GeqEnum.next_geqC at hc
  obtain ⟨it, w1, w2, g1, g2, rfl⟩ := gives_bind hc
  obtain ⟨j, n, rfl, hm⟩ := skip_to_valueC_moved g1
  have hI := h.move hm
  have hb := hm.begin_
  obtain ⟨b, w3, w4, g3, g4, rfl⟩ := gives_bind g2
  obtain ⟨-, rfl⟩ := gives_lift g3
  by_cases h1 : b ≥ value
  · rw [if_pos h1] at g4
    obtain ⟨v, w5, w6, g5, g6, rfl⟩ := gives_bind g4
    obtain ⟨-, rfl⟩ := gives_lift g5
    obtain ⟨rfl, rfl⟩ := gives_pure g6
    refine ⟨l, g, hI, Nat.le_refl _, ?_⟩
    simp only [moves_add]
    omega
  · rw [if_neg h1] at g4
    by_cases h2 : it.has_next = true
    · have hn : it.begin_ < it.end_ := by unfold It.has_next at h2; exact of_decide_eq_true h2
      rw [if_pos h2] at g4
      obtain ⟨p, w5, w6, g5, g6, rfl⟩ := gives_bind g4
      obtain ⟨l', g', a1, a2, a3, a4, a5⟩ := inSliceC_count hI hn g5
      have a3 : p.1.it = it := a3
      by_cases h3 : p.2 ≠ not_found
      · rw [if_pos h3] at g6
        obtain ⟨v, w7, w8, g7, g8, rfl⟩ := gives_bind g6
        obtain ⟨-, rfl⟩ := gives_lift g7
        obtain ⟨rfl, rfl⟩ := gives_pure g8
        refine ⟨l', g', a1, ?_, ?_⟩
        · show _ + (0 + (0 + (w5.blocks + (0 + 0)))) ≤ _; omega
        · show p.1.it.begin_ = _ + (32 * (j + (0 + (w5.jumps + (0 + 0)))) + (n + (0 + (w5.steps + (0 + 0)))))
          rw [a3, hb, a4, a5]; omega
      · rw [if_neg h3] at g6
        obtain ⟨u, w7, w8, g7, g8, rfl⟩ := gives_bind g6
        obtain rfl := gives_tick g7
        obtain ⟨it1, w9, w10, g9, g10, rfl⟩ := gives_bind g8
        obtain ⟨g9', rfl⟩ := gives_lift g9
        have hmn := Walked.next g9' (by rw [a3]; exact hn)
        have hI2 := a1.move hmn
        have hb2 := hmn.begin_
        rw [a3] at hb2
        by_cases h4 : it1.has_next = true
        · rw [if_pos h4] at g10
          obtain ⟨v, w11, w12, g11, g12, rfl⟩ := gives_bind g10
          obtain ⟨-, rfl⟩ := gives_lift g11
          obtain ⟨rfl, rfl⟩ := gives_pure g12
          refine ⟨l', g', hI2, ?_, ?_⟩
          · show _ + (0 + (0 + (w5.blocks + (0 + (0 + (0 + 0)))))) ≤ _; omega
          · show it1.begin_ = _ + (32 * (j + (0 + (w5.jumps + (0 + (0 + (0 + 0))))))
              + (n + (0 + (w5.steps + (1 + (0 + (0 + 0)))))))
            rw [hb2, hb, a4, a5]; omega
        · rw [if_neg h4] at g10
          obtain ⟨rfl, rfl⟩ := gives_pure g10
          refine ⟨l', g', hI2, ?_, ?_⟩
          · show _ + (0 + (0 + (w5.blocks + (0 + (0 + 0))))) ≤ _; omega
          · show it1.begin_ = _ + (32 * (j + (0 + (w5.jumps + (0 + (0 + 0)))))
              + (n + (0 + (w5.steps + (1 + (0 + 0))))))
            rw [hb2, hb, a4, a5]; omega
    · rw [if_neg h2] at g4
      obtain ⟨rfl, rfl⟩ := gives_pure g4
      refine ⟨l, g, hI, Nat.le_refl _, ?_⟩
      simp only [moves_add]
      omega

/-- a history of calls -/
theorem runC_count {dbg : Bool} {m : Mem} {s : SSeq} (vs : List Nat) : ∀ {e : GeqEnum} {l g : Nat}
    {as : List Nat} {w : Moves},
    CountInv m s e l g → (e.runC dbg m vs).Gives as w →
    w.blocks ≤ l + blocksFrom m s g ∧ e.it.begin_ + (32 * w.jumps + w.steps) ≤ s.chunks := by
  induction vs with
  | nil =>
    intro e l g as w h hc
    unfold GeqEnum.runC at hc
    obtain ⟨rfl, rfl⟩ := gives_pure hc
    have h1 := h.le
    have h2 := h.end_
    exact ⟨Nat.zero_le _, by simp only; omega⟩
  | cons v vs ih =>
    intro e l g as w h hc
    unfold GeqEnum.runC at hc
    obtain ⟨p, w1, w2, g1, g2, rfl⟩ := gives_bind hc
    obtain ⟨l', g', a1, a2, a3⟩ := next_geqC_count h g1
    obtain ⟨rest, w3, w4, g3, g4, rfl⟩ := gives_bind g2
    obtain ⟨rfl, rfl⟩ := gives_pure g4
    obtain ⟨b1, b2⟩ := ih a1 g3
    constructor
    · show w1.blocks + (w3.blocks + 0) ≤ _
      omega
    · show _ + (32 * (w1.jumps + (w3.jumps + 0)) + (w1.steps + (w3.steps + 0))) ≤ _
      omega

theorem new_count {m : Mem} {s : SSeq} {e : GeqEnum} (h : GeqEnum.new m s = .ok e) :
    CountInv m s e 0 0 ∧ e.it.begin_ = 0 := by
  unfold GeqEnum.new at h
  cases hs : s.size m with
  | error x => rw [hs] at h; cases h
  | ok n =>
    rw [hs, ok_bind] at h
    injection h with h
    subst h
    exact ⟨⟨rfl, rfl, Nat.zero_le _, rfl, Or.inl (Nat.zero_le _)⟩, rfl⟩

theorem runC_new_count {dbg : Bool} {m : Mem} {s : SSeq} {e : GeqEnum} (h : GeqEnum.new m s = .ok e)
    {vs as : List Nat} {w : Moves} (hc : e.runMoves dbg m vs = .ok (as, w)) :
    w.blocks ≤ blocksFrom m s 0 ∧ 32 * w.jumps + w.steps ≤ s.chunks := by
  obtain ⟨h1, h2⟩ := new_count h
  have := runC_count vs h1 hc
  rw [h2] at this
  omega

/-! ## Where the iterator is after a call -/

theorem gives_erase {α : Type} {x : Cnt α} {a : α} {w : Moves} (h : x.Gives a w) : x.erase = .ok a := by
  unfold Cnt.Gives at h
  rw [h]; rfl

theorem erase_gives {α : Type} {x : Cnt α} {a : α} (h : x.erase = .ok a) : ∃ w, x.Gives a w := by
  unfold Cnt.erase at h
  cases hx : (x : Except Err (α × Moves)) with
  | error e => rw [hx] at h; cases h
  | ok p =>
    obtain ⟨b, w⟩ := p
    rw [hx] at h
    injection h with h
    exact ⟨w, by rw [← h]; exact rfl⟩

theorem cacheC_it {dbg : Bool} {m : Mem} {e e' : GeqEnum} (h : e.cacheC dbg m = .ok e') : e'.it = e.it := by
  unfold GeqEnum.cacheC at h
  cases hi : e.it.id m with
  | error x => rw [hi] at h; cases h
  | ok cid =>
    rw [hi, ok_bind] at h
    by_cases h1 : e.chunk_id ≠ cid
    · rw [if_pos h1] at h
      cases hb : e.it.blocks m with
      | error y => rw [hb] at h; cases h
      | ok b =>
        rw [hb, ok_bind] at h
        cases ha : cassert dbg (decide (b ≥ 1) && decide (b ≤ 256)) with
        | error y => rw [ha] at h; cases h
        | ok u =>
          rw [ha, ok_bind] at h
          cases hr : rd8 m e.it.data with
          | error y => rw [hr] at h; cases h
          | ok i =>
            rw [hr, ok_bind] at h
            injection h with h
            subst h
            rfl
    · rw [if_neg h1] at h
      injection h with h
      rw [h]

theorem inBlockC_it {m : Mem} {e : GeqEnum} {value : Nat} {q : GeqEnum × Nat} {w : Moves}
    (h : (e.inBlockC m value).Gives q w) : q.1.it = e.it := by
  unfold GeqEnum.inBlockC at h
  by_cases h1 : e.begin_ ≠ e.end_
  · rw [if_pos h1] at h
    by_cases h2 : e.id * 256 ≥ value
    · rw [if_pos h2] at h
      obtain ⟨x, w1, w2, g1, g2, -⟩ := gives_bind h
      rw [(gives_pure g2).1]
    · rw [if_neg h2] at h
      obtain ⟨mx, w1, w2, g1, g2, -⟩ := gives_bind h
      by_cases h3 : value % 256 > mx
      · rw [if_pos h3] at g2
        by_cases h4 : e.begin_ + 2 = e.end_
        · rw [if_pos h4] at g2
          rw [(gives_pure g2).1]
        · rw [if_neg h4] at g2
          obtain ⟨u, w3, w4, g3, g4, -⟩ := gives_bind g2
          obtain ⟨c, w5, w6, g5, g6, -⟩ := gives_bind g4
          obtain ⟨c', w7, w8, g7, g8, -⟩ := gives_bind g6
          obtain ⟨v, w9, w10, g9, g10, -⟩ := gives_bind g8
          rw [(gives_pure g10).1]
      · rw [if_neg h3] at g2
        obtain ⟨c, w5, w6, g5, g6, -⟩ := gives_bind g2
        by_cases h4 : c + 1 < 31
        · rw [if_pos h4] at g6
          obtain ⟨v, w9, w10, g9, g10, -⟩ := gives_bind g6
          rw [(gives_pure g10).1]
        · rw [if_neg h4] at g6
          obtain ⟨v, w9, w10, g9, g10, -⟩ := gives_bind g6
          rw [(gives_pure g10).1]
  · rw [if_neg h1] at h
    rw [(gives_pure h).1]

theorem inSliceC_it {dbg : Bool} {m : Mem} {e : GeqEnum} {value : Nat} {q : GeqEnum × Nat} {w : Moves}
    (hc : (e.inSliceC dbg m value).Gives q w) : q.1.it = e.it := by
  unfold GeqEnum.inSliceC at hc
  obtain ⟨t, w1, w2, g1, g2, -⟩ := gives_bind hc
  by_cases h1 : t = type_sparse
  · rw [if_pos h1] at g2
    unfold GeqEnum.sparse_caseC at g2
    obtain ⟨e1, w3, w4, g3, g4, -⟩ := gives_bind g2
    obtain ⟨p, w5, w6, g5, g6, -⟩ := gives_bind g4
    have k0 := inBlockC_it g6
    have k1 : q.1.it = e1.it := k0
    exact k1.trans (cacheC_it (gives_lift g3).1)
  · rw [if_neg h1] at g2
    by_cases h2 : t = type_dense
    · rw [if_pos h2] at g2
      obtain ⟨v, w3, w4, g3, g4, -⟩ := gives_bind g2
      rw [(gives_pure g4).1]
    · rw [if_neg h2] at g2
      by_cases h3 : t = type_full
      · rw [if_pos h3] at g2
        rw [(gives_pure g2).1]
      · rw [if_neg h3] at g2
        obtain ⟨g3, -⟩ := gives_lift g2
        unfold unreachable at g3
        cases dbg <;> cases g3

/-- After a call the iterator is where the skip has left it, or one slice further. -/
theorem GeqEnum.next_geq_it {dbg : Bool} {m : Mem} {e e' : GeqEnum} {value a : Nat} {it : It}
    (es : e.it.skip_to_value m (value / 65536) = .ok it)
    (h : e.next_geq dbg m value = .ok (e', a)) : e'.it = it ∨ it.next m = .ok e'.it := by
  rw [← next_geqC_erase] at h
  obtain ⟨w, hc⟩ := erase_gives h
  unfold GeqEnum.next_geqC at hc
  obtain ⟨it1, w1, w2, g1, g2, -⟩ := gives_bind hc
  have he := gives_erase g1
  rw [skip_to_valueC_erase, es] at he
  injection he with he
  subst he
  obtain ⟨b, w3, w4, g3, g4, -⟩ := gives_bind g2
  by_cases h1 : b ≥ value
  · rw [if_pos h1] at g4
    obtain ⟨v, w5, w6, g5, g6, -⟩ := gives_bind g4
    have := (gives_pure g6).1
    injection this with this _
    exact Or.inl (by rw [this])
  · rw [if_neg h1] at g4
    by_cases h2 : it.has_next = true
    · rw [if_pos h2] at g4
      obtain ⟨p, w5, w6, g5, g6, -⟩ := gives_bind g4
      have a3 : p.1.it = it := inSliceC_it g5
      by_cases h3 : p.2 ≠ not_found
      · rw [if_pos h3] at g6
        obtain ⟨v, w7, w8, g7, g8, -⟩ := gives_bind g6
        have := (gives_pure g8).1
        injection this with this _
        exact Or.inl (by rw [this]; exact a3)
      · rw [if_neg h3] at g6
        obtain ⟨u, w7, w8, g7, g8, -⟩ := gives_bind g6
        obtain ⟨it1, w9, w10, g9, g10, -⟩ := gives_bind g8
        obtain ⟨g9', -⟩ := gives_lift g9
        rw [a3] at g9'
        refine Or.inr ?_
        by_cases h4 : it1.has_next = true
        · rw [if_pos h4] at g10
          obtain ⟨v, w11, w12, g11, g12, -⟩ := gives_bind g10
          have := (gives_pure g12).1
          injection this with this _
          rw [this]; exact g9'
        · rw [if_neg h4] at g10
          have := (gives_pure g10).1
          injection this with this _
          rw [this]; exact g9'
    · rw [if_neg h2] at g4
      have := (gives_pure g4).1
      injection this with this _
      exact Or.inl (by rw [this])

end Sliced
