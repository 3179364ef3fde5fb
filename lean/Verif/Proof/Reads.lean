import Verif.Proof.Iter
import Verif.Model.Contains
import Verif.Model.Select
import Verif.Model.NextGeq
/-! # How many bytes of memory a result depends on -/
namespace Sliced

/-- On the memory `m` the result of `f` depends on at most `k` bytes: there are `k` addresses such
that `f` has the same outcome on every memory that has the same contents there. -/
def Costs {α : Type} (m : Mem) (k : Nat) (f : Mem → Res α) : Prop :=
  ∃ S : List Nat, S.length ≤ k ∧ ∀ m', (∀ p ∈ S, m' p = m p) → f m' = f m

section
variable {α β : Type} {m : Mem} {k k' : Nat}

theorem Costs.const (r : Res α) : Costs m 0 (fun _ => r) := ⟨[], Nat.le_refl _, fun _ _ => rfl⟩

theorem Costs.mono {f : Mem → Res α} (h : Costs m k f) (hk : k ≤ k') : Costs m k' f := by
  obtain ⟨S, h1, h2⟩ := h
  exact ⟨S, by omega, h2⟩

theorem Costs.bind {f : Mem → Res α} {g : Mem → α → Res β} (h : Costs m k f)
    (hg : ∀ x, f m = .ok x → Costs m k' (fun m => g m x)) :
    Costs m (k + k') (fun m => f m >>= g m) := by
  obtain ⟨S, h1, h2⟩ := h
  cases e : f m with
  | error x =>
    refine ⟨S, by omega, ?_⟩
    intro m' hm
    show (f m' >>= g m') = (f m >>= g m)
    rw [h2 m' hm, e]; rfl
  | ok x =>
    obtain ⟨T, t1, t2⟩ := hg x e
    refine ⟨S ++ T, by rw [List.length_append]; omega, ?_⟩
    intro m' hm
    show (f m' >>= g m') = (f m >>= g m)
    rw [h2 m' (fun p hp => hm p (by simp [hp])), e]
    exact t2 m' (fun p hp => hm p (by simp [hp]))

theorem Costs.map {f : Mem → Res α} {g : α → Res β} (h : Costs m k f) :
    Costs m k (fun m => f m >>= g) := h.bind (k' := 0) fun x _ => .const (g x)

theorem Costs.ite {c : Prop} [Decidable c] {f g : Mem → Res α} (hf : c → Costs m k f)
    (hg : ¬ c → Costs m k g) : Costs m k (fun m => if c then f m else g m) := by
  by_cases h : c
  · simpa only [if_pos h] using hf h
  · simpa only [if_neg h] using hg h

theorem reads_rd8 (p : Nat) : Costs m 1 (fun m => rd8 m p) := by
  refine ⟨[p], Nat.le_refl _, ?_⟩
  intro m' h
  show rd8 m' p = rd8 m p
  unfold rd8
  rw [h p (by simp)]

theorem reads_rd16 (p : Nat) : Costs m 2 (fun m => rd16 m p) :=
  (reads_rd8 p).bind (k' := 1) fun _ _ => (reads_rd8 (p + 1)).bind (k' := 0) fun _ _ => .const _

theorem reads_rd32 (p : Nat) : Costs m 4 (fun m => rd32 m p) :=
  (reads_rd16 p).bind (k' := 2) fun _ _ => (reads_rd16 (p + 2)).bind (k' := 0) fun _ _ => .const _

theorem reads_rd64 (p : Nat) : Costs m 8 (fun m => rd64 m p) :=
  (reads_rd32 p).bind (k' := 4) fun _ _ => (reads_rd32 (p + 4)).bind (k' := 0) fun _ _ => .const _

theorem reads_memWords (p i : Nat) : Costs m 8 (fun m => memWords m p i) := reads_rd64 _

/-! ## The iterator -/

theorem reads_id (it : It) : Costs m 2 (fun m => it.id m) :=
  Costs.ite (fun _ => reads_rd16 _) (fun _ => (Costs.const _).mono (by omega))

theorem reads_base (it : It) : Costs m 2 (fun m => it.base m) :=
  (reads_id it).bind (k' := 0) fun _ _ => .const _

theorem reads_card (it : It) : Costs m 2 (fun m => it.cardinality m) :=
  (reads_rd16 _).bind (k' := 0) fun _ _ => .const _

theorem reads_type (it : It) : Costs m 2 (fun m => it.type m) :=
  (reads_rd16 _).bind (k' := 0) fun _ _ => .const _

theorem reads_blocks (it : It) : Costs m 2 (fun m => it.blocks m) :=
  (reads_rd16 _).bind (k' := 0) fun _ _ => .const _

theorem reads_next (it : It) : Costs m 2 (fun m => it.next m) :=
  (reads_rd16 _).bind (k' := 0) fun _ _ => .const _

theorem reads_jump (it : It) : Costs m 4 (fun m => it.jump m) :=
  (reads_rd32 _).bind (k' := 0) fun _ _ => .const _

theorem next_fields {it it' : It} (h : it.next m = .ok it') :
    it'.begin_ = it.begin_ + 1 ∧ it'.end_ = it.end_ ∧ it'.header = it.header + 8 := by
  unfold It.next at h
  cases e : it.offset m with
  | error x => rw [e] at h; cases h
  | ok o => rw [e] at h; cases h; exact ⟨rfl, rfl, rfl⟩

theorem jump_fields {it it' : It} (h : it.jump m = .ok it') :
    it'.begin_ = it.begin_ + 32 ∧ it'.end_ = it.end_ ∧ it'.header = it.header + 256 := by
  unfold It.jump at h
  cases e : rd32 m (it.pointers + 4) with
  | error x => rw [e] at h; cases h
  | ok o => rw [e] at h; cases h; exact ⟨rfl, rfl, rfl⟩

/-- The jumps: two bytes of a header and four of a pointer for every 32 chunks. -/
theorem reads_skip_value_loop (lb f : Nat) (it : It) :
    Costs m (6 * ((it.end_ - it.begin_ - 1) / 32)) (fun m => It.skip_value_loop m lb f it) := by
  induction f generalizing it with
  | zero => exact (Costs.const _).mono (by omega)
  | succ f ih =>
    refine Costs.ite (fun h => ?_) (fun _ => (Costs.const _).mono (by omega))
    simp only [It.skip_position, associativity] at h
    refine ((reads_rd16 _).bind (k' := 4 + 6 * ((it.end_ - it.begin_ - 33) / 32)) ?_).mono (by omega)
    intro x _
    refine Costs.ite (fun _ => ?_) (fun _ => (Costs.const _).mono (by omega))
    refine (reads_jump it).bind ?_
    intro it' e
    obtain ⟨h1, h2, -⟩ := jump_fields e
    have := ih it'
    rw [h1, h2] at this
    exact this.mono (by omega)

/-- what is left for `advance` -/
theorem skip_value_loop_exit {lb f : Nat} {it it' : It}
    (h : It.skip_value_loop m lb f it = .ok it') :
    it'.end_ ≤ it'.begin_ + 32 ∨ ∃ x, rd16 m (it'.header + 8 * 32) = .ok x ∧ lb < x := by
  induction f generalizing it with
  | zero => cases h
  | succ f ih =>
    unfold It.skip_value_loop at h
    by_cases h1 : it.skip_position < it.end_
    · rw [if_pos h1] at h
      cases e : rd16 m it.skip_header with
      | error x => rw [e] at h; cases h
      | ok x =>
        rw [e] at h
        simp only [ok_bind] at h
        by_cases h2 : x ≤ lb
        · rw [if_pos h2] at h
          cases e2 : it.jump m with
          | error y => rw [e2] at h; cases h
          | ok it1 => rw [e2] at h; exact ih h
        · rw [if_neg h2] at h
          cases h
          exact Or.inr ⟨x, e, by omega⟩
    · rw [if_neg h1] at h
      cases h
      simp only [It.skip_position, associativity] at h1
      exact Or.inl (by omega)

theorem reads_advance_loop (lb f n : Nat) (it : It)
    (h : it.end_ ≤ it.begin_ + n ∨ ∃ x, rd16 m (it.header + 8 * n) = .ok x ∧ lb < x) :
    Costs m (4 * n + 2) (fun m => It.advance_loop m lb f it) := by
  induction f generalizing it n with
  | zero => exact (Costs.const _).mono (by omega)
  | succ f ih =>
    refine ((reads_id it).bind (k' := 4 * n) ?_).mono (by omega)
    intro i ei
    refine Costs.ite (fun hc => ?_) (fun _ => (Costs.const _).mono (by omega))
    simp only [Bool.and_eq_true, decide_eq_true_eq] at hc
    have hb : it.begin_ < it.end_ := by
      have := hc.2
      unfold It.has_next at this
      simpa using this
    cases n with
    | zero =>
      exfalso
      rcases h with h | ⟨x, hx, hlt⟩
      · omega
      · unfold It.id at ei
        rw [hc.2, if_pos rfl] at ei
        rw [Nat.mul_zero, Nat.add_zero, ei] at hx
        cases hx
        omega
    | succ n =>
      refine ((reads_next it).bind (k' := 4 * n + 2) ?_).mono (by omega)
      intro it' e
      obtain ⟨h1, h2, h3⟩ := next_fields e
      refine ih n it' ?_
      rcases h with h | ⟨x, hx, hlt⟩
      · exact Or.inl (by omega)
      · refine Or.inr ⟨x, ?_, hlt⟩
        rw [h3, show it.header + 8 + 8 * n = it.header + 8 * (n + 1) by omega]
        exact hx

theorem reads_skip_to_value (lb : Nat) (it : It) :
    Costs m (6 * ((it.end_ - it.begin_ - 1) / 32) + 130) (fun m => it.skip_to_value m lb) := by
  refine (reads_skip_value_loop lb _ it).bind ?_
  intro it' e
  exact reads_advance_loop lb _ 32 it' (skip_value_loop_exit e)

/-! ## `contains` -/

theorem reads_sparse_block_contains_loop (p v n i : Nat) :
    Costs m n (fun m => sparse_block_contains_loop m p v n i) := by
  induction n generalizing i with
  | zero => exact .const _
  | succ n ih =>
    refine ((reads_rd8 _).bind (k' := n) ?_).mono (by omega)
    intro x _
    exact Costs.ite (fun _ => (Costs.const _).mono (by omega)) fun _ =>
      Costs.ite (fun _ => (Costs.const _).mono (by omega)) fun _ => ih _

theorem reads_bitmap_contains (p v : Nat) : Costs m 8 (fun m => bitmap_contains (memWords m p) v) :=
  (reads_memWords p _).bind (k' := 0) fun _ _ => .const _

theorem reads_cassert (dbg b : Bool) {f : Mem → Res α} (h : Costs m k f) :
    Costs m k (fun m => cassert dbg b >>= fun _ => f m) :=
  ((Costs.const (cassert dbg b)).bind (k' := k) fun _ _ => h).mono (by omega)

theorem reads_contains_sparse_chunk_loop {dbg : Bool} {v e f p d n : Nat} (hn : p + 2 * n = e) :
    Costs m (2 * n + 30) (fun m => contains_sparse_chunk_loop dbg m v e f p d) := by
  induction f generalizing p d n with
  | zero => exact (Costs.const _).mono (by omega)
  | succ f ih =>
    refine Costs.ite (fun _ => (Costs.const _).mono (by omega)) fun he => ?_
    obtain ⟨n, rfl⟩ : ∃ j, n = j + 1 := ⟨n - 1, by omega⟩
    refine ((reads_rd8 _).bind (k' := 2 * n + 31) ?_).mono (by omega)
    intro i _
    refine Costs.ite (fun _ => (Costs.const _).mono (by omega)) fun _ => ?_
    refine ((reads_rd8 _).bind (k' := 2 * n + 30) ?_).mono (by omega)
    intro c _
    refine Costs.ite (fun _ => reads_cassert _ _ ?_) fun _ => ih (by omega)
    refine Costs.ite (fun hc => ?_) fun _ => ?_
    · exact (reads_sparse_block_contains_loop _ _ _ _).mono (by omega)
    · exact (reads_bitmap_contains _ _).mono (by omega)

theorem rd8_bound {p x : Nat} (h : rd8 m p = .ok x) : x < 256 := by
  unfold rd8 at h
  cases e : m p with
  | none => rw [e] at h; cases h
  | some b => rw [e] at h; cases h; exact UInt8.toNat_lt _

theorem rd16_bound {p x : Nat} (h : rd16 m p = .ok x) : x < 65536 := by
  unfold rd16 at h
  cases e : rd8 m p with
  | error y => rw [e] at h; cases h
  | ok b0 =>
    rw [e] at h
    cases e1 : rd8 m (p + 1) with
    | error y => rw [e1] at h; cases h
    | ok b1 =>
      rw [e1] at h
      cases h
      have := rd8_bound e
      have := rd8_bound e1
      omega

theorem blocks_bound {it : It} {n : Nat} (h : it.blocks m = .ok n) : n ≤ 256 := by
  unfold It.blocks at h
  cases e : rd16 m (it.header + 4) with
  | error y => rw [e] at h; cases h
  | ok x =>
    rw [e] at h
    cases h
    have := rd16_bound e
    omega

theorem reads_contains_sparse_chunk {dbg : Bool} {p n v : Nat} (hn : n ≤ 256) :
    Costs m 542 (fun m => contains_sparse_chunk dbg m p n v) :=
  reads_cassert _ _ ((reads_contains_sparse_chunk_loop (n := n) (by omega)).mono (by omega))

theorem reads_contains (dbg : Bool) (s : SSeq) (v : Nat) :
    Costs m (6 * ((s.chunks - 1) / 32) + 678) (fun m => s.contains dbg m v) := by
  refine ((reads_skip_to_value (v / 65536) s.begin).bind (k' := 548) ?_).mono (by
    show 6 * ((s.chunks - 0 - 1) / 32) + 130 + 548 ≤ _
    omega)
  intro it _
  refine ((reads_id it).bind (k' := 546) ?_).mono (by omega)
  intro i _
  refine Costs.ite (fun _ => ?_) fun _ => (Costs.const _).mono (by omega)
  refine ((reads_type it).bind (k' := 544) ?_).mono (by omega)
  intro t _
  refine Costs.ite (fun _ => ?_) fun _ => Costs.ite (fun _ => ?_) fun _ =>
    Costs.ite (fun _ => (Costs.const _).mono (by omega)) fun _ => (Costs.const _).mono (by omega)
  · refine ((reads_blocks it).bind (k' := 542) ?_).mono (by omega)
    intro n hn
    exact reads_contains_sparse_chunk (blocks_bound hn)
  · exact (reads_bitmap_contains _ _).mono (by omega)

/-! ## `cardinality` -/

theorem reads_cardinality_loop (n h c : Nat) :
    Costs m (2 * n) (fun m => cardinality_loop m n h c) := by
  induction n generalizing h c with
  | zero => exact .const _
  | succ n ih =>
    refine ((reads_rd16 _).bind (k' := 2 * n) ?_).mono (by omega)
    intro x _
    exact ih _ _

/-! ## `next_geq` -/

theorem reads_min_value_in_bitmap_loop (p n i : Nat) :
    Costs m (8 * n) (fun m => min_value_in_bitmap_loop (memWords m p) n i) := by
  induction n generalizing i with
  | zero => exact .const _
  | succ n ih =>
    refine ((reads_memWords p i).bind (k' := 8 * n) ?_).mono (by omega)
    intro w _
    exact Costs.ite (fun _ => (Costs.const _).mono (by omega)) fun _ => ih _

theorem reads_max_value_in_bitmap_loop (p n : Nat) :
    Costs m (8 * n) (fun m => max_value_in_bitmap_loop (memWords m p) n) := by
  induction n with
  | zero => exact .const _
  | succ n ih =>
    refine ((reads_memWords p n).bind (k' := 8 * n) ?_).mono (by omega)
    intro w _
    exact Costs.ite (fun _ => (Costs.const _).mono (by omega)) fun _ => ih

theorem reads_next_geq_bitmap_loop {p nw f k w n : Nat} (hn : k + 1 + n = nw) :
    Costs m (8 * n) (fun m => next_geq_bitmap_loop (memWords m p) nw f k w) := by
  induction f generalizing k w n with
  | zero => exact (Costs.const _).mono (by omega)
  | succ f ih =>
    refine Costs.ite (fun _ => ?_) fun _ => (Costs.const _).mono (by omega)
    refine Costs.ite (fun _ => (Costs.const _).mono (by omega)) fun hk => ?_
    obtain ⟨n, rfl⟩ : ∃ j, n = j + 1 := ⟨n - 1, by omega⟩
    refine ((reads_memWords p _).bind (k' := 8 * n) ?_).mono (by omega)
    intro x _
    exact ih (by omega)

theorem reads_next_geq_bitmap {p nw v : Nat} (hv : v < 64 * nw) :
    Costs m (8 * nw) (fun m => next_geq_bitmap (memWords m p) nw v) := by
  refine ((reads_memWords p (v / 64)).bind (k' := 8 * (nw - 1)) ?_).mono (by omega)
  intro w _
  exact (reads_next_geq_bitmap_loop (n := nw - (v / 64 + 1)) (by omega)).mono (by omega)

theorem reads_next_geq_sparse_block_loop (p v n i : Nat) :
    Costs m n (fun m => next_geq_sparse_block_loop m p v n i) := by
  induction n generalizing i with
  | zero => exact .const _
  | succ n ih =>
    refine ((reads_rd8 _).bind (k' := n) ?_).mono (by omega)
    intro x _
    exact Costs.ite (fun _ => (Costs.const _).mono (by omega)) fun _ => ih _

theorem reads_max_value_in_block (p d : Nat) : Costs m 33 (fun m => max_value_in_block m p d) := by
  refine (reads_rd8 _).bind (k' := 32) ?_
  intro c _
  exact Costs.ite (fun _ => (reads_rd8 _).mono (by omega)) fun _ =>
    reads_max_value_in_bitmap_loop d 4

theorem reads_block_min (p d b : Nat) : Costs m 33 (fun m => block_min m p d b) := by
  refine (reads_rd8 _).bind (k' := 32) ?_
  intro c _
  refine Costs.ite (fun _ => ?_) fun _ => ?_
  · exact (reads_rd8 d).map.mono (k := 1) (by omega)
  · exact (reads_min_value_in_bitmap_loop d 4 0).bind (k' := 0) fun _ _ => .const _

theorem reads_skip_blocks {b e f p d i n : Nat} (hn : p + 2 * n = e) :
    Costs m (2 * n) (fun m => skip_blocks m b e f p d i) := by
  induction f generalizing p d i n with
  | zero => exact (Costs.const _).mono (by omega)
  | succ f ih =>
    refine Costs.ite (fun hc => ?_) fun _ => (Costs.const _).mono (by omega)
    obtain ⟨n, rfl⟩ : ∃ j, n = j + 1 := ⟨n - 1, by omega⟩
    refine ((reads_rd8 _).bind (k' := 2 * n + 1) ?_).mono (by omega)
    intro c _
    refine ((reads_rd8 _).bind (k' := 2 * n) ?_).mono (by omega)
    intro i' _
    exact ih (by omega)

theorem reads_next_geq_sparse_chunk {dbg : Bool} {p n v : Nat} (hn : n ≤ 256) :
    Costs m 581 (fun m => next_geq_sparse_chunk dbg m p n v) := by
  refine reads_cassert _ _ ?_
  refine ((reads_rd8 _).bind (k' := 580) ?_).mono (by omega)
  intro i _
  refine ((reads_skip_blocks (n := n) (by omega)).bind (k' := 68) ?_).mono (by omega)
  rintro ⟨p', d', i'⟩ _
  refine Costs.ite (fun _ => ?_) fun _ => (Costs.const _).mono (by omega)
  refine Costs.ite (fun _ => (reads_block_min _ _ _).mono (by omega)) fun _ => ?_
  refine ((reads_max_value_in_block p' d').bind (k' := 35) ?_).mono (by omega)
  intro mx _
  refine Costs.ite (fun _ => Costs.ite (fun _ => (Costs.const _).mono (by omega)) fun _ => ?_)
    fun _ => ?_
  · refine ((reads_rd8 _).bind (k' := 34) ?_).mono (by omega)
    intro c _
    refine ((reads_rd8 _).bind (k' := 33) ?_).mono (by omega)
    intro i _
    exact reads_block_min _ _ _
  · refine ((reads_rd8 _).bind (k' := 34) ?_).mono (by omega)
    intro c _
    refine Costs.ite (fun hc => ?_) fun _ => ?_
    · exact (reads_next_geq_sparse_block_loop d' (v % 256) (c + 1) 0).map.mono (k := c + 1) (by omega)
    · exact (reads_next_geq_bitmap (p := d') (nw := 4) (v := v % 256) (by omega)).map.mono
        (k := 32) (by omega)

theorem reads_chunk_min (dbg : Bool) (it : It) : Costs m 8196 (fun m => chunk_min dbg m it) := by
  refine ((reads_type it).bind (k' := 8194) ?_).mono (by omega)
  intro t _
  have hjp : ∀ v, Costs m 2 (fun m => It.base m it >>= fun b => pure (u32 (v + b))) :=
    fun v => (reads_base it).map
  refine Costs.ite (fun _ => ?_) fun _ => Costs.ite (fun _ => ?_) fun _ =>
    Costs.ite (fun _ => ?_) fun _ => ?_
  · refine ((reads_blocks it).bind (k' := 36) ?_).mono (by omega)
    intro n _
    refine Costs.bind (k := 34) (k' := 2) ?_ fun v _ => hjp v
    refine reads_cassert _ _ ?_
    refine ((reads_rd8 _).bind (k' := 33) ?_).mono (by omega)
    intro i _
    exact reads_block_min _ _ _
  · exact Costs.bind (k := 8192) (k' := 2) (reads_min_value_in_bitmap_loop _ 1024 0) fun v _ => hjp v
  · exact (hjp 0).mono (by omega)
  · exact ((Costs.const (unreachable dbg)).bind (k' := 2) fun v _ => hjp v).mono (by omega)

theorem reads_next_geq (dbg : Bool) (s : SSeq) (v : Nat) :
    Costs m (6 * ((s.chunks - 1) / 32) + 16524) (fun m => s.next_geq dbg m v) := by
  refine ((reads_skip_to_value (v / 65536) s.begin).bind (k' := 16394) ?_).mono (by
    show 6 * ((s.chunks - 0 - 1) / 32) + 130 + 16394 ≤ _
    omega)
  intro it _
  refine ((reads_base it).bind (k' := 16392) ?_).mono (by omega)
  intro b _
  refine Costs.ite (fun _ => (reads_chunk_min dbg it).mono (by omega)) fun _ => ?_
  refine Costs.ite (fun _ => ?_) fun _ => (Costs.const _).mono (by omega)
  refine ((reads_type it).bind (k' := 16390) ?_).mono (by omega)
  intro t _
  have hjp : ∀ x, Costs m 8198 (fun m => if x ≠ not_found then pure (u32 (x + b)) else do
      let it ← It.next m it
      if it.has_next = true then chunk_min dbg m it else pure not_found) := by
    intro x
    refine Costs.ite (fun _ => (Costs.const _).mono (by omega)) fun _ => ?_
    refine ((reads_next it).bind (k' := 8196) ?_).mono (by omega)
    intro it' _
    exact Costs.ite (fun _ => reads_chunk_min dbg it') fun _ => (Costs.const _).mono (by omega)
  refine Costs.ite (fun _ => ?_) fun _ => Costs.ite (fun _ => ?_) fun _ =>
    Costs.ite (fun _ => ?_) fun _ => ?_
  · refine ((reads_blocks it).bind (k' := 8779) ?_).mono (by omega)
    intro n hn
    exact Costs.bind (k := 581) (k' := 8198) (reads_next_geq_sparse_chunk (blocks_bound hn))
      fun x _ => hjp x
  · exact Costs.bind (k := 8192) (k' := 8198) (reads_next_geq_bitmap (nw := 1024) (by omega))
      fun x _ => hjp x
  · exact (hjp (v % 65536)).mono (by omega)
  · exact ((Costs.const (unreachable dbg)).bind (k' := 8198) fun x _ => hjp x).mono (by omega)

/-! ## `select` -/

theorem reads_select_bitmap_loop (dbg : Bool) (p r n i el : Nat) :
    Costs m (8 * n) (fun m => select_bitmap_loop dbg (memWords m p) r n i el) := by
  induction n generalizing i el with
  | zero => exact .const _
  | succ n ih =>
    refine ((reads_memWords p i).bind (k' := 8 * n) ?_).mono (by omega)
    intro w _
    exact Costs.ite (fun _ => (Costs.const _).mono (by omega)) fun _ => ih _ _

theorem reads_select_sparse_chunk_loop {dbg : Bool} {r e f p d el n : Nat} (hn : p + 2 * n = e) :
    Costs m (2 * n + 32) (fun m => select_sparse_chunk_loop dbg m r e f p d el) := by
  induction f generalizing p d el n with
  | zero => exact (Costs.const _).mono (by omega)
  | succ f ih =>
    refine Costs.ite (fun _ => (Costs.const _).mono (by omega)) fun he => ?_
    obtain ⟨n, rfl⟩ : ∃ j, n = j + 1 := ⟨n - 1, by omega⟩
    refine ((reads_rd8 _).bind (k' := 2 * n + 33) ?_).mono (by omega)
    intro i _
    refine ((reads_rd8 _).bind (k' := 2 * n + 32) ?_).mono (by omega)
    intro c _
    refine Costs.ite (fun _ => reads_cassert _ _ ?_) fun _ => ih (by omega)
    refine Costs.ite (fun hc => ?_) fun _ => ?_
    · exact (reads_rd8 _).map.mono (k := 1) (by omega)
    · exact (reads_select_bitmap_loop dbg d _ 4 0 0).map.mono (k := 32) (by omega)

theorem reads_skip_position_loop (rank f : Nat) (it : It) (el : Nat) :
    Costs m (8 * ((it.end_ - it.begin_ - 1) / 32))
      (fun m => It.skip_position_loop m rank f it el) := by
  induction f generalizing it el with
  | zero => exact (Costs.const _).mono (by omega)
  | succ f ih =>
    refine Costs.ite (fun h => ?_) (fun _ => (Costs.const _).mono (by omega))
    simp only [It.skip_position, associativity] at h
    refine ((reads_rd32 _).bind (k' := 4 + 8 * ((it.end_ - it.begin_ - 33) / 32)) ?_).mono (by omega)
    intro x _
    refine Costs.ite (fun _ => (Costs.const _).mono (by omega)) (fun _ => ?_)
    refine (reads_jump it).bind ?_
    intro it' e
    obtain ⟨h1, h2, -⟩ := jump_fields e
    have := ih it' (u32 (el + x))
    rw [h1, h2] at this
    exact this.mono (by omega)

variable {B : Nat → Chk → Prop}

/-- what is left for the loop over single chunks -/
theorem skip_position_loop_exit {rank f el el' : Nat} {it it' : It} {cs : List Chk}
    (h : ItOnP B m it cs) (hp : PtrsAt m it.pointers cs) (hel : el + cardSum cs < 4294967296)
    (e : It.skip_position_loop m rank f it el = .ok (it', el')) :
    ∃ cs', ItOnP B m it' cs' ∧ el' + cardSum cs' < 4294967296 ∧
      (cs'.length ≤ 32 ∨ rank < el' + cardSum (cs'.take 32)) := by
  induction f generalizing it cs el with
  | zero => cases e
  | succ f ih =>
    have hend := h.end_
    unfold It.skip_position_loop at e
    by_cases hl : 32 < cs.length
    · rw [if_pos (by simp only [It.skip_position, associativity]; omega)] at e
      have h0 := (hp 0 (by omega)).1
      simp only [Nat.mul_zero, Nat.add_zero, List.drop_zero] at h0
      have hsum := cardSum_take_drop 32 cs
      rw [h0] at e
      simp only [ok_bind] at e
      rw [u32_lt (by omega)] at e
      by_cases hgt : el + cardSum (cs.take 32) > rank
      · rw [if_pos hgt] at e
        cases e
        exact ⟨cs, h, hel, Or.inr hgt⟩
      · rw [if_neg hgt] at e
        obtain ⟨it1, e1, h1, p1, -⟩ := It.jump_spec h hp hl
        rw [e1] at e
        exact ih h1 p1 (by omega) e
    · rw [if_neg (by simp only [It.skip_position, associativity]; omega)] at e
      cases e
      exact ⟨cs, h, hel, Or.inl (by omega)⟩

theorem reads_advance_position_loop {rank f el n : Nat} {it : It} {cs : List Chk}
    (h : ItOnP B m it cs) (hel : el + cardSum cs < 4294967296)
    (hn : cs.length ≤ n ∨ rank < el + cardSum (cs.take n)) :
    Costs m (4 * n + 2) (fun m => It.advance_position_loop m rank f it el) := by
  induction f generalizing it cs el n with
  | zero => exact (Costs.const _).mono (by omega)
  | succ f ih =>
    refine Costs.ite (fun _ => ?_) (fun _ => (Costs.const _).mono (by omega))
    cases cs with
    | nil =>
      rename_i hc
      rw [h.has_next_nil] at hc
      cases hc
    | cons c cs =>
      refine ((reads_card it).bind (k' := 4 * n) ?_).mono (by omega)
      intro x ex
      rw [h.cardinality] at ex
      cases ex
      rw [cardSum_cons] at hel
      refine Costs.ite (fun _ => (Costs.const _).mono (by omega)) (fun hgt => ?_)
      rw [u32_lt (by omega)] at hgt
      cases n with
      | zero =>
        exfalso
        rcases hn with hn | hn
        · simp at hn
        · simp only [List.take_zero] at hn
          have : cardSum [] = 0 := rfl
          omega
      | succ n =>
        refine ((reads_next it).bind (k' := 4 * n + 2) ?_).mono (by omega)
        intro it' e
        obtain ⟨it1, e1, h1, -⟩ := h.next
        rw [e1] at e
        cases e
        refine ih h1 (by rw [u32_lt (by omega)]; omega) ?_
        rw [u32_lt (by omega)]
        rcases hn with hn | hn
        · exact Or.inl (by simpa using hn)
        · rw [List.take_succ_cons, cardSum_cons] at hn
          exact Or.inr (by omega)

theorem reads_skip_to_position {rank : Nat} {it : It} {cs : List Chk} (h : ItOnP B m it cs)
    (hp : PtrsAt m it.pointers cs) :
    Costs m (8 * ((it.end_ - it.begin_ - 1) / 32) + 130) (fun m => it.skip_to_position m rank) := by
  have htot := h.wf.cardSum_lt
  refine (reads_skip_position_loop rank _ it 0).bind ?_
  rintro ⟨it', el'⟩ e
  obtain ⟨cs', h1, h2, h3⟩ := skip_position_loop_exit h hp (by omega) e
  exact reads_advance_position_loop h1 h2 h3

theorem reads_select {dbg : Bool} {s : SSeq} {cs : List Chk} (h : SeqAtP B m s cs) (rank v : Nat) :
    Costs m (8 * ((s.chunks - 1) / 32) + 8326) (fun m => s.select dbg m rank v) := by
  refine ((reads_skip_to_position (rank := rank) h.begin h.ptrs).bind (k' := 8196) ?_).mono (by
    show 8 * ((s.chunks - 0 - 1) / 32) + 130 + 8196 ≤ _
    omega)
  rintro ⟨it, el⟩ _
  refine Costs.ite (fun _ => ?_) (fun _ => (Costs.const _).mono (by omega))
  refine reads_cassert _ _ ?_
  refine ((reads_type it).bind (k' := 8194) ?_).mono (by omega)
  intro t _
  have hjp : ∀ x, Costs m 2 (fun m => It.id m it >>= fun i =>
      pure (true, u32 (x + u32 (i * 65536)))) := fun x => (reads_id it).map
  refine Costs.ite (fun _ => ?_) fun _ => Costs.ite (fun _ => ?_) fun _ =>
    Costs.ite (fun _ => ?_) fun _ => ?_
  · refine ((reads_blocks it).bind (k' := 546) ?_).mono (by omega)
    intro n hn
    have := blocks_bound hn
    exact Costs.bind (k := 544) (k' := 2) (reads_cassert _ _
      ((reads_select_sparse_chunk_loop (n := n) (by omega)).mono (by omega))) fun x _ => hjp x
  · exact Costs.bind (k := 8192) (k' := 2) (reads_select_bitmap_loop _ _ _ 1024 0 0)
      fun x _ => hjp x
  · exact (hjp (sub32 rank el)).mono (by omega)
  · exact ((Costs.const (unreachable dbg)).bind (k' := 2) fun x _ => hjp x).mono (by omega)

end
end Sliced
