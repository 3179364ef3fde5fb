import Verif.Proof.GeqCount
import Verif.Proof.Reads
/-!
# How many bytes a history of calls of `next_geq_enumerator` depends on

Each jump, each move to the next slice and each move to the next block pays for the bytes it needs; the
rest of a call depends on a fixed number of bytes.
-/
namespace Sliced

variable {m : Mem}

/-- `Costs` for code that counts -/
def CostsC {α : Type} (m : Mem) (k : Nat) (F : Mem → Cnt α) : Prop :=
  ∃ S : List Nat, S.length ≤ k ∧ ∀ m', (∀ p ∈ S, m' p = m p) → F m' = F m

theorem CostsC.const {α : Type} (x : Cnt α) : CostsC m 0 (fun _ => x) :=
  ⟨[], Nat.le_refl _, fun _ _ => rfl⟩

theorem CostsC.mono {α : Type} {F : Mem → Cnt α} {k k' : Nat} (h : CostsC m k F) (hk : k ≤ k') :
    CostsC m k' F := by
  obtain ⟨S, h1, h2⟩ := h
  exact ⟨S, by omega, h2⟩

theorem CostsC.lift {α : Type} {f : Mem → Res α} {k : Nat} (h : Costs m k f) :
    CostsC m k (fun m => Cnt.lift (f m)) := by
  obtain ⟨S, h1, h2⟩ := h
  refine ⟨S, h1, fun m' hm => ?_⟩
  show Cnt.lift (f m') = Cnt.lift (f m)
  rw [h2 m' hm]

theorem CostsC.bind {α β : Type} {F : Mem → Cnt α} {G : Mem → α → Cnt β} {x : α} {w : Moves} {k k' : Nat}
    (hx : (F m).Gives x w) (h1 : CostsC m k F) (h2 : CostsC m k' (fun m => G m x)) :
    CostsC m (k + k') (fun m => F m >>= G m) := by
  obtain ⟨S, a1, a2⟩ := h1
  obtain ⟨T, b1, b2⟩ := h2
  refine ⟨S ++ T, by rw [List.length_append]; omega, fun m' hm => ?_⟩
  have e1 := a2 m' (fun p hp => hm p (List.mem_append_left _ hp))
  have e2 := b2 m' (fun p hp => hm p (List.mem_append_right _ hp))
  have e2 : G m' x = G m x := e2
  show Cnt.bind (F m') (G m') = Cnt.bind (F m) (G m)
  rw [e1]
  unfold Cnt.Gives at hx
  rw [hx]
  unfold Cnt.bind
  simp only
  rw [e2]

/-- the bytes the moves pay for -/
def Moves.bytes (w : Moves) : Nat := 6 * w.jumps + 4 * w.steps + 2 * w.blocks

theorem Moves.bytes_add (a b : Moves) : (a + b).bytes = a.bytes + b.bytes := by
  show 6 * (a.jumps + b.jumps) + 4 * (a.steps + b.steps) + 2 * (a.blocks + b.blocks) = _
  unfold Moves.bytes
  omega

theorem bytes_zero : (⟨0, 0, 0⟩ : Moves).bytes = 0 := rfl
theorem bytes_jump : (⟨1, 0, 0⟩ : Moves).bytes = 6 := rfl
theorem bytes_step : (⟨0, 1, 0⟩ : Moves).bytes = 4 := rfl
theorem bytes_block : (⟨0, 0, 1⟩ : Moves).bytes = 2 := rfl

theorem skip_value_loopC_reads {lb : Nat} (f : Nat) : ∀ {it it' : It} {w : Moves},
    (It.skip_value_loopC m lb f it).Gives it' w →
    CostsC m (2 + w.bytes) (fun m => It.skip_value_loopC m lb f it) := by
  induction f with
  | zero => intro it it' w h; cases h
  | succ f ih =>
    intro it it' w h
    unfold It.skip_value_loopC at h ⊢
    by_cases h1 : it.skip_position < it.end_
    · rw [if_pos h1] at h
      simp only [if_pos h1]
      obtain ⟨x, w1, w2, g1, g2, rfl⟩ := gives_bind h
      have z1 := (gives_lift g1).2
      by_cases h2 : x ≤ lb
      · rw [if_pos h2] at g2
        obtain ⟨u, w3, w4, g3, g4, rfl⟩ := gives_bind g2
        have z3 := gives_tick g3
        obtain ⟨it1, w5, w6, g5, g6, rfl⟩ := gives_bind g4
        have z5 := (gives_lift g5).2
        refine (CostsC.bind g1 (.lift (reads_rd16 _)) (k' := 4 + (2 + w6.bytes)) ?_).mono ?_
        · simp only [if_pos h2]
          refine CostsC.mono (k := 0 + (4 + (2 + w6.bytes))) ?_ (by omega)
          refine CostsC.bind g3 (.const _) ?_
          refine CostsC.bind g5 (.lift (reads_jump _)) ?_
          exact ih g6
        · rw [Moves.bytes_add, Moves.bytes_add, Moves.bytes_add, z1, z3, z5, bytes_zero, bytes_jump]
          omega
      · refine (CostsC.bind g1 (.lift (reads_rd16 _)) (k' := 0) ?_).mono (by omega)
        simp only [if_neg h2]
        exact .const _
    · simp only [if_neg h1]
      exact (CostsC.const _).mono (by omega)

theorem advance_loopC_reads {lb : Nat} (f : Nat) : ∀ {it it' : It} {w : Moves},
    (It.advance_loopC m lb f it).Gives it' w →
    CostsC m (2 + w.bytes) (fun m => It.advance_loopC m lb f it) := by
  induction f with
  | zero => intro it it' w h; cases h
  | succ f ih =>
    intro it it' w h
    unfold It.advance_loopC at h ⊢
    obtain ⟨x, w1, w2, g1, g2, rfl⟩ := gives_bind h
    have z1 := (gives_lift g1).2
    by_cases h2 : (decide (x < lb) && it.has_next) = true
    · rw [if_pos h2] at g2
      obtain ⟨u, w3, w4, g3, g4, rfl⟩ := gives_bind g2
      have z3 := gives_tick g3
      obtain ⟨it1, w5, w6, g5, g6, rfl⟩ := gives_bind g4
      have z5 := (gives_lift g5).2
      refine (CostsC.bind g1 (.lift (reads_id _)) (k' := 2 + (2 + w6.bytes)) ?_).mono ?_
      · simp only [if_pos h2]
        refine CostsC.mono (k := 0 + (2 + (2 + w6.bytes))) ?_ (by omega)
        refine CostsC.bind g3 (.const _) ?_
        refine CostsC.bind g5 (.lift (reads_next _)) ?_
        exact ih g6
      · rw [Moves.bytes_add, Moves.bytes_add, Moves.bytes_add, z1, z3, z5, bytes_zero, bytes_step]
        omega
    · refine (CostsC.bind g1 (.lift (reads_id _)) (k' := 0) ?_).mono (by omega)
      simp only [if_neg h2]
      exact .const _

theorem skip_to_valueC_reads {lb : Nat} {it it' : It} {w : Moves}
    (h : (it.skip_to_valueC m lb).Gives it' w) :
    CostsC m (4 + w.bytes) (fun m => it.skip_to_valueC m lb) := by
  unfold It.skip_to_valueC at h ⊢
  obtain ⟨it1, w1, w2, g1, g2, rfl⟩ := gives_bind h
  refine CostsC.mono (k := (2 + w1.bytes) + (2 + w2.bytes)) ?_ (by rw [Moves.bytes_add]; omega)
  refine CostsC.bind g1 (skip_value_loopC_reads _ g1) ?_
  exact advance_loopC_reads _ g2

theorem skip_blocksC_reads {b en : Nat} (f : Nat) : ∀ {p d i : Nat} {q : Nat × Nat × Nat} {w : Moves},
    (skip_blocksC m b en f p d i).Gives q w →
    CostsC m w.bytes (fun m => skip_blocksC m b en f p d i) := by
  induction f with
  | zero => intro p d i q w h; cases h
  | succ f ih =>
    intro p d i q w h
    unfold skip_blocksC at h ⊢
    by_cases h1 : i < b ∧ p ≠ en
    · rw [if_pos h1] at h
      simp only [if_pos h1]
      obtain ⟨u, w3, w4, g3, g4, rfl⟩ := gives_bind h
      have z3 := gives_tick g3
      obtain ⟨c, w5, w6, g5, g6, rfl⟩ := gives_bind g4
      have z5 := (gives_lift g5).2
      obtain ⟨c', w7, w8, g7, g8, rfl⟩ := gives_bind g6
      have z7 := (gives_lift g7).2
      refine CostsC.mono (k := 0 + (1 + (1 + w8.bytes))) ?_ ?_
      · refine CostsC.bind g3 (.const _) ?_
        refine CostsC.bind g5 (.lift (reads_rd8 _)) ?_
        refine CostsC.bind g7 (.lift (reads_rd8 _)) ?_
        exact ih g8
      · rw [Moves.bytes_add, Moves.bytes_add, Moves.bytes_add, z3, z5, z7, bytes_zero, bytes_block]
        omega
    · simp only [if_neg h1]
      exact (CostsC.const _).mono (by omega)

theorem inBlockC_reads {e : GeqEnum} {value : Nat} {q : GeqEnum × Nat} {w : Moves}
    (h : (e.inBlockC m value).Gives q w) : CostsC m (66 + w.bytes) (fun m => e.inBlockC m value) := by
  unfold GeqEnum.inBlockC at h ⊢
  by_cases h1 : e.begin_ ≠ e.end_
  · rw [if_pos h1] at h
    simp only [if_pos h1]
    by_cases h2 : e.id * 256 ≥ value
    · rw [if_pos h2] at h
      simp only [if_pos h2]
      obtain ⟨x, w1, w2, g1, g2, rfl⟩ := gives_bind h
      exact (CostsC.bind g1 (.lift (reads_block_min _ _ _)) (.const _)).mono (by omega)
    · rw [if_neg h2] at h
      simp only [if_neg h2]
      obtain ⟨mx, w1, w2, g1, g2, rfl⟩ := gives_bind h
      have z1 := (gives_lift g1).2
      refine (CostsC.bind g1 (.lift (reads_max_value_in_block _ _)) (k' := 33 + w2.bytes) ?_).mono ?_
      · by_cases h3 : value % 256 > mx
        · rw [if_pos h3] at g2
          simp only [if_pos h3]
          by_cases h4 : e.begin_ + 2 = e.end_
          · simp only [if_pos h4]
            exact (CostsC.const _).mono (by omega)
          · rw [if_neg h4] at g2
            simp only [if_neg h4]
            obtain ⟨u, w3, w4, g3, g4, rfl⟩ := gives_bind g2
            have z3 := gives_tick g3
            obtain ⟨c, w5, w6, g5, g6, rfl⟩ := gives_bind g4
            obtain ⟨c', w7, w8, g7, g8, rfl⟩ := gives_bind g6
            obtain ⟨v, w9, w10, g9, g10, rfl⟩ := gives_bind g8
            refine CostsC.mono (k := 0 + (1 + (1 + (33 + 0)))) ?_ ?_
            · refine CostsC.bind g3 (.const _) ?_
              refine CostsC.bind g5 (.lift (reads_rd8 _)) ?_
              refine CostsC.bind g7 (.lift (reads_rd8 _)) ?_
              refine CostsC.bind g9 (.lift (reads_block_min _ _ _)) ?_
              exact .const _
            · rw [Moves.bytes_add, z3, bytes_block]
              omega
        · rw [if_neg h3] at g2
          simp only [if_neg h3]
          obtain ⟨c, w5, w6, g5, g6, rfl⟩ := gives_bind g2
          refine (CostsC.bind g5 (.lift (reads_rd8 _)) (k' := 32) ?_).mono (by omega)
          by_cases h4 : c + 1 < 31
          · rw [if_pos h4] at g6
            simp only [if_pos h4]
            obtain ⟨v, w9, w10, g9, g10, rfl⟩ := gives_bind g6
            exact (CostsC.bind g9 (.lift (reads_next_geq_sparse_block_loop _ _ _ _)) (.const _)).mono (by omega)
          · rw [if_neg h4] at g6
            simp only [if_neg h4]
            obtain ⟨v, w9, w10, g9, g10, rfl⟩ := gives_bind g6
            exact (CostsC.bind g9 (.lift (reads_next_geq_bitmap (nw := 4) (by omega))) (.const _)).mono (by omega)
      · rw [Moves.bytes_add, z1, bytes_zero]
        omega
  · simp only [if_neg h1]
    exact (CostsC.const _).mono (by omega)

theorem cacheC_reads (dbg : Bool) (e : GeqEnum) : Costs m 5 (fun m => e.cacheC dbg m) := by
  refine ((reads_id e.it).bind (k' := 3) ?_).mono (by omega)
  intro cid _
  refine Costs.ite (fun _ => ?_) fun _ => (Costs.const _).mono (by omega)
  refine ((reads_blocks e.it).bind (k' := 1) ?_).mono (by omega)
  intro b _
  refine reads_cassert _ _ ?_
  exact (reads_rd8 _).map

theorem sparse_caseC_reads {dbg : Bool} {e : GeqEnum} {value : Nat} {q : GeqEnum × Nat} {w : Moves}
    (h : (e.sparse_caseC dbg m value).Gives q w) :
    CostsC m (71 + w.bytes) (fun m => e.sparse_caseC dbg m value) := by
  unfold GeqEnum.sparse_caseC at h ⊢
  obtain ⟨e1, w1, w2, g1, g2, rfl⟩ := gives_bind h
  obtain ⟨p, w3, w4, g3, g4, rfl⟩ := gives_bind g2
  refine (CostsC.bind g1 (.lift (cacheC_reads dbg e))
    (CostsC.bind g3 (skip_blocksC_reads _ g3) (inBlockC_reads g4))).mono ?_
  rw [Moves.bytes_add, Moves.bytes_add]
  omega

theorem inSliceC_reads {dbg : Bool} {e : GeqEnum} {value : Nat} {q : GeqEnum × Nat} {w : Moves}
    (hv : value < 65536) (h : (e.inSliceC dbg m value).Gives q w) :
    CostsC m (8194 + w.bytes) (fun m => e.inSliceC dbg m value) := by
  unfold GeqEnum.inSliceC at h ⊢
  obtain ⟨t, w1, w2, g1, g2, rfl⟩ := gives_bind h
  refine (CostsC.bind g1 (.lift (reads_type _)) (k' := 8192 + w2.bytes) ?_).mono (by
    rw [Moves.bytes_add]; omega)
  by_cases h1 : t = type_sparse
  · rw [if_pos h1] at g2
    simp only [if_pos h1]
    exact (sparse_caseC_reads g2).mono (by omega)
  · rw [if_neg h1] at g2
    simp only [if_neg h1]
    by_cases h2 : t = type_dense
    · rw [if_pos h2] at g2
      simp only [if_pos h2]
      obtain ⟨v, w3, w4, g3, g4, rfl⟩ := gives_bind g2
      exact (CostsC.bind g3 (.lift (reads_next_geq_bitmap (nw := 1024) (by omega))) (.const _)).mono (by omega)
    · simp only [if_neg h2]
      by_cases h3 : t = type_full
      · simp only [if_pos h3]
        exact (CostsC.const _).mono (by omega)
      · simp only [if_neg h3]
        exact (CostsC.const _).mono (by omega)

/-- one call -/
theorem next_geqC_reads {dbg : Bool} {e : GeqEnum} {value : Nat} {q : GeqEnum × Nat} {w : Moves}
    (h : (e.next_geqC dbg m value).Gives q w) :
    CostsC m (16396 + w.bytes) (fun m => e.next_geqC dbg m value) := by
  unfold GeqEnum.next_geqC at h ⊢
  obtain ⟨it, w1, w2, g1, g2, rfl⟩ := gives_bind h
  refine (CostsC.bind g1 (skip_to_valueC_reads g1) (k' := 16392 + w2.bytes) ?_).mono (by
    rw [Moves.bytes_add]; omega)
  obtain ⟨b, w3, w4, g3, g4, rfl⟩ := gives_bind g2
  refine (CostsC.bind g3 (.lift (reads_base _)) (k' := 16390 + w4.bytes) ?_).mono (by
    rw [Moves.bytes_add]; omega)
  by_cases h1 : b ≥ value
  · rw [if_pos h1] at g4
    simp only [if_pos h1]
    obtain ⟨v, w5, w6, g5, g6, rfl⟩ := gives_bind g4
    exact (CostsC.bind g5 (.lift (reads_chunk_min _ _)) (.const _)).mono (by omega)
  · rw [if_neg h1] at g4
    simp only [if_neg h1]
    by_cases h2 : it.has_next = true
    · rw [if_pos h2] at g4
      simp only [if_pos h2]
      obtain ⟨p, w5, w6, g5, g6, rfl⟩ := gives_bind g4
      refine (CostsC.bind g5 (inSliceC_reads (by omega) g5) (k' := 8196 + w6.bytes) ?_).mono (by
        rw [Moves.bytes_add]; omega)
      by_cases h3 : p.2 ≠ not_found
      · rw [if_pos h3] at g6
        simp only [if_pos h3]
        obtain ⟨v, w7, w8, g7, g8, rfl⟩ := gives_bind g6
        exact (CostsC.bind g7 (.lift (reads_base _)) (.const _)).mono (by omega)
      · rw [if_neg h3] at g6
        simp only [if_neg h3]
        obtain ⟨u, w7, w8, g7, g8, rfl⟩ := gives_bind g6
        have z7 := gives_tick g7
        obtain ⟨it1, w9, w10, g9, g10, rfl⟩ := gives_bind g8
        refine CostsC.mono (k := 0 + (2 + 8196)) ?_ (by rw [Moves.bytes_add, z7, bytes_step]; omega)
        refine CostsC.bind g7 (.const _) ?_
        refine CostsC.bind g9 (.lift (reads_next _)) ?_
        by_cases h4 : it1.has_next = true
        · rw [if_pos h4] at g10
          simp only [if_pos h4]
          obtain ⟨v, w11, w12, g11, g12, rfl⟩ := gives_bind g10
          exact (CostsC.bind g11 (.lift (reads_chunk_min _ _)) (.const _)).mono (by omega)
        · simp only [if_neg h4]
          exact (CostsC.const _).mono (by omega)
    · simp only [if_neg h2]
      exact (CostsC.const _).mono (by omega)

/-- a history of calls -/
theorem runC_reads {dbg : Bool} (vs : List Nat) : ∀ {e : GeqEnum} {as : List Nat} {w : Moves},
    (e.runC dbg m vs).Gives as w →
    CostsC m (16396 * vs.length + w.bytes) (fun m => e.runC dbg m vs) := by
  induction vs with
  | nil =>
    intro e as w _
    unfold GeqEnum.runC
    exact (CostsC.const _).mono (by omega)
  | cons v vs ih =>
    intro e as w h
    unfold GeqEnum.runC at h ⊢
    obtain ⟨p, w1, w2, g1, g2, rfl⟩ := gives_bind h
    obtain ⟨rest, w3, w4, g3, g4, rfl⟩ := gives_bind g2
    refine CostsC.mono (k := (16396 + w1.bytes) + ((16396 * vs.length + w3.bytes) + 0)) ?_ ?_
    · refine CostsC.bind g1 (next_geqC_reads g1) ?_
      refine CostsC.bind g3 (ih g3) ?_
      exact .const _
    · rw [Moves.bytes_add, Moves.bytes_add, List.length_cons]
      omega

end Sliced
