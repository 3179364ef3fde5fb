import Verif.Proof.CorruptOps
import Verif.Model.NextGeqEnumerator
/-!
# Memory of any content: the iterator after any moves, next_geq_enumerator
-/
namespace Sliced

variable {m : Mem} {s : SSeq} {g : Nat} {it : It} {dbg : Bool} {lo hi : Nat}

/-- an iterator of `s` that has moved in any way: it has jumped at most once for every 32 slices that it
has come past -/
structure Moving (s : SSeq) (g : Nat) (it : It) : Prop extends ItOf s g it where
  ptr : ∃ k, it.pointers = s.pointers + 8 * k ∧ 32 * k ≤ it.begin_

theorem Moving.start (s : SSeq) (g : Nat) : Moving s g s.begin :=
  ⟨ItOf.start s g, 0, rfl, Nat.le_refl _⟩

theorem runJumpM (hr : Room m s g) (hg : 134217728 ≤ g) (h : Moving s g it)
    (hn : it.skip_position < it.end_) :
    Runs (fun it' => Moving s g it' ∧ it'.begin_ = it.begin_ + 32 ∧ it'.begin_ < s.chunks)
      (it.jump m) := by
  unfold It.skip_position at hn
  rw [h.fin] at hn
  have e := h.hdr
  obtain ⟨k, ep, ek⟩ := h.ptr
  simp only [associativity] at hn
  unfold It.jump
  refine (run32 (a := it.pointers + 4) hr.ptr (by omega) (by omega)).bind (fun o ho => Runs.pure ?_)
  refine ⟨⟨⟨?_, h.fin, ?_, ?_, ?_⟩, k + 1, ?_, ?_⟩, rfl, hn⟩
  · simp only [It.skip_header, It.skip_position, associativity]; omega
  · simp only [It.skip_position, associativity]; omega
  · have := h.low; simp only; omega
  · have := h.high
    simp only [It.skip_position, associativity, Nat.mul_add]
    omega
  · simp only; omega
  · simp only [It.skip_position, associativity]; omega

theorem runSkipValueM (hr : Room m s g) (hg : 134217728 ≤ g) (v : Nat) : ∀ (f : Nat) (it : It),
    Moving s g it → it.end_ - it.begin_ < f →
    Runs (fun it' => Moving s g it' ∧ it.begin_ ≤ it'.begin_ ∧
      (it.begin_ < s.chunks → it'.begin_ < s.chunks)) (It.skip_value_loop m v f it)
  | 0, _, _, hf => absurd hf (Nat.not_lt_zero _)
  | f + 1, it, h, hf => by
    unfold It.skip_value_loop
    split
    · next hc =>
      have hc' := hc
      unfold It.skip_position at hc'
      simp only [associativity] at hc'
      have e := h.hdr
      have ee := h.fin
      have hs : it.skip_header = it.header + 8 * 32 := rfl
      refine (run16 (a := it.skip_header) hr.hdr (by omega) (by omega)).bind (fun x hx => ?_)
      split
      · refine (runJumpM hr hg h hc).bind ?_
        rintro it' ⟨h1, h2, h3⟩
        refine (runSkipValueM hr hg v f it' h1 (by rw [h1.fin, ← h.fin]; omega)).mono ?_
        rintro it'' ⟨q1, q2, q3⟩
        exact ⟨q1, by omega, fun _ => q3 h3⟩
      · exact Runs.pure ⟨h, Nat.le_refl _, id⟩
    · exact Runs.pure ⟨h, Nat.le_refl _, id⟩

theorem It.next_pointers {it' : It} (h : it.next m = .ok it') : it'.pointers = it.pointers := by
  unfold It.next at h
  obtain ⟨x, -, h⟩ := bind_ok h
  cases h
  rfl

theorem It.advance_loop_pointers {v : Nat} : ∀ (f : Nat) {it it' : It},
    It.advance_loop m v f it = .ok it' → it'.pointers = it.pointers
  | 0, _, _, h => nomatch h
  | f + 1, it, it', h => by
    unfold It.advance_loop at h
    obtain ⟨i, -, h⟩ := bind_ok h
    split at h
    · obtain ⟨it1, h1, h⟩ := bind_ok h
      rw [It.advance_loop_pointers f h, It.next_pointers h1]
    · cases h
      rfl

theorem Moving.next (hr : Room m s g) (h : Moving s g it) (hg : 65536 ≤ g) (hn : it.begin_ < s.chunks) :
    Runs (fun it' => Moving s g it' ∧ it'.begin_ = it.begin_ + 1) (it.next m) := by
  obtain ⟨it', e, h1, h2⟩ := runNext hr h.toItOf hg hn
  obtain ⟨k, ep, ek⟩ := h.ptr
  exact ⟨it', e, ⟨h1, k, by rw [It.next_pointers e, ep], by omega⟩, h2⟩

theorem Moving.advance (hr : Room m s g) (hg : 65536 ≤ g) (h : Moving s g it) (v : Nat) :
    Runs (fun it' => Moving s g it' ∧ it.begin_ ≤ it'.begin_) (it.advance m v) := by
  obtain ⟨it', e, h1, h2, -⟩ := runAdvance' hr hg h.toItOf v
  obtain ⟨k, ep, ek⟩ := h.ptr
  exact ⟨it', e, ⟨h1, k, by rw [It.advance_loop_pointers _ e, ep], by omega⟩, h2⟩

theorem Moving.skip (hr : Room m s g) (hg : 134217728 ≤ g) (h : Moving s g it) (v : Nat) :
    Runs (fun it' => Moving s g it' ∧ it.begin_ ≤ it'.begin_ ∧
      (v = 0 → it.begin_ < s.chunks → it'.begin_ < s.chunks)) (it.skip_to_value m v) := by
  unfold It.skip_to_value
  refine (runSkipValueM hr hg v _ it h (Nat.lt_succ_self _)).bind ?_
  rintro it1 ⟨h1, h2, h3⟩
  by_cases hv : v = 0
  · subst hv
    unfold It.advance It.advance_loop
    refine (runId hr h1.toItOf).bind (fun i _ => ?_)
    rw [if_neg (by simp)]
    exact Runs.pure ⟨h1, h2, fun _ => h3⟩
  · refine (h1.advance hr (by omega) v).mono ?_
    rintro it2 ⟨q1, q2⟩
    exact ⟨q1, by omega, fun e => absurd e hv⟩

/-! ## next_geq_enumerator -/

/-- the enumerator remembers a place within the blocks of some slice -/
def InBlocks (m : Mem) (e : GeqEnum) : Prop :=
  ∃ lo hi n, Win m lo hi ∧ e.begin_ + 2 * n = e.end_ ∧ lo ≤ e.begin_ ∧ e.end_ + 1 ≤ hi ∧ lo ≤ e.data ∧
    e.data + 32 * n ≤ hi

structure GeqAt (m : Mem) (s : SSeq) (g : Nat) (e : GeqEnum) : Prop where
  it : Moving s g e.it
  blk : e.chunk_id < 65536 → InBlocks m e

theorem runGeqRest (e : GeqEnum) {v : Nat} (hb : InBlocks m e) :
    Runs (fun q : GeqEnum × Nat => q.1.it = e.it ∧ InBlocks m q.1) (do
      let (b, d, i) ← skip_blocks m (v / 256) e.end_ (e.end_ - e.begin_ + 1) e.begin_ e.data e.id
      let e := { e with begin_ := b, data := d, id := i }
      if e.begin_ ≠ e.end_ then do
        let base := e.id * 256
        if base ≥ v then do
          let v ← block_min m e.begin_ e.data base
          return (e, v)
        else do
          let value := v % 256
          let mx ← max_value_in_block m e.begin_ e.data
          if value > mx then
            if e.begin_ + 2 = e.end_ then return (e, not_found)
            else do
              let c1 ← rd8 m (e.begin_ + 1)
              let data := e.data + bytes_by_cardinality (c1 + 1)
              let begin_ := e.begin_ + 2
              let id ← rd8 m begin_
              let e := { e with data := data, begin_ := begin_, id := id }
              let v ← block_min m e.begin_ e.data (e.id * 256)
              return (e, v)
          else do
            let base := e.id * 256
            let c1 ← rd8 m (e.begin_ + 1)
            let c := c1 + 1
            if c < 31 then do
              let x ← next_geq_sparse_block m e.data c value
              return (e, u32 (x + base))
            else do
              let x ← next_geq_bitmap (memWords m e.data) block_size_in_64bit_words value
              return (e, u32 (x + base))
      else return (e, not_found)) := by
  obtain ⟨lo, hi, n, hw, h1, h2, h3, h4, h5⟩ := hb
  refine (runSkipBlocks hw n _ _ _ _ (by omega) h1 h2 h3 h4 h5).bind ?_
  rintro ⟨b, d, id⟩ ⟨k, k1, k2, k3, k4⟩
  simp only at k1 k2 k3 k4 ⊢
  have ok : InBlocks m { e with begin_ := b, data := d, id := id } :=
    ⟨lo, hi, k, hw, k1, k2, h3, k3, k4⟩
  split
  · next hne =>
    obtain ⟨k, rfl⟩ : ∃ j, k = j + 1 := ⟨k - 1, by omega⟩
    split
    · exact (runBlockMin hw k2 (by omega) k3 (by omega)).bind (fun _ _ => Runs.pure ⟨rfl, ok⟩)
    · refine (runMaxBlock hw k2 (by omega) k3 (by omega)).bind (fun mx _ => ?_)
      split
      · split
        · exact Runs.pure ⟨rfl, ok⟩
        · refine (run8 hw (by omega) (by omega)).bind (fun c1 _ => ?_)
          have := bytes_le (c1 + 1)
          refine (run8 hw (by omega) (by omega)).bind (fun id' _ => ?_)
          refine (runBlockMin hw (by omega) (by omega) (by omega) (by omega)).bind
            (fun _ _ => Runs.pure ⟨rfl, lo, hi, k, hw, ?_, ?_, h3, ?_, ?_⟩)
          all_goals (simp only; omega)
      · refine (run8 hw (by omega) (by omega)).bind (fun c1 hc1 => ?_)
        split
        · exact (runNextGeqSparseBlock hw k3 _ 0 (by omega)).bind (fun _ _ => Runs.pure ⟨rfl, ok⟩)
        · exact (runNextGeqBitmap (N := 4) (runMem hw k3 (by omega)) (by omega)).bind
            (fun _ _ => Runs.pure ⟨rfl, ok⟩)
  · exact Runs.pure ⟨rfl, ok⟩

theorem runGeqSparse (hr : Room m s g) {e : GeqEnum} (h : GeqAt m s g e) (hn : e.it.begin_ < s.chunks)
    (v : Nat) :
    Runs (fun q => q.1.it = e.it ∧ GeqAt m s g q.1) (e.sparse_case dbg m v) := by
  have fin : ∀ {e' : GeqEnum}, e'.it = e.it → ∀ q : GeqEnum × Nat, q.1.it = e'.it ∧ InBlocks m q.1 →
      q.1.it = e.it ∧ GeqAt m s g q.1 := by
    rintro e' he q ⟨h1, h2⟩
    exact ⟨by rw [h1, he], ⟨by rw [h1, he]; exact h.it, fun _ => h2⟩⟩
  unfold GeqEnum.sparse_case
  have hid := h.it.toItOf
  have hnx : e.it.has_next = true := by rw [has_next_iff, hid.fin]; exact hn
  refine (runId hr hid).bind (fun cid hc => ?_)
  have hw := hid.win hr
  simp only
  split
  · refine (runBlocks hr hid hn).bind (fun b hb => ?_)
    refine (Runs.cassert (by simp; omega)).bind (fun _ _ => ?_)
    refine (run8 hw (Nat.le_refl _) (by omega)).bind (fun i _ => ?_)
    rw [pure_bind]
    refine (runGeqRest _ ⟨e.it.data, e.it.data + 8736, b, hw, ?_, ?_, ?_, ?_, ?_⟩).mono (fin rfl)
    all_goals (simp only; omega)
  · next he =>
    rw [pure_bind]
    refine (runGeqRest e (h.blk ?_)).mono (fin rfl)
    have := hc.1 hnx
    omega

theorem safeGeqNext (hr : Room m s g) (hg : 134217728 ≤ g) {e : GeqEnum} (h : GeqAt m s g e) (v : Nat)
    (h0 : v = 0 → e.it.begin_ < s.chunks) :
    Safe (Legal m s) dbg (fun q => GeqAt m s g q.1 ∧ (v = 0 → q.1.it.begin_ < s.chunks))
      (e.next_geq dbg m v) := by
  unfold GeqEnum.next_geq
  refine (h.it.skip hr hg (v / 65536)).bindS ?_
  rintro it ⟨h1, h2, h3⟩
  have he : GeqAt m s g { e with it := it } := ⟨h1, h.blk⟩
  have hz : v = 0 → it.begin_ < s.chunks := fun e0 => h3 (by omega) (h0 e0)
  refine (runBase hr h1.toItOf).bindS (fun b hb => ?_)
  simp only
  split
  · next hge =>
    refine (safeChunkMin hr h1.toItOf ?_).bind (fun x _ => Runs.safe (Runs.pure ⟨he, hz⟩))
    cases hn : it.has_next with
    | true => exact h1.next_lt hn
    | false =>
      have := hb hn
      exact hz (by omega)
  · next hlt0 =>
    have hv0 : v ≠ 0 := by omega
    split
    · next hn =>
      have hlt := h1.next_lt hn
      refine (runType hr h1.toItOf hlt).bindS ?_
      rintro t ⟨-, ht⟩
      have hw := h1.win hr
      have rest : ∀ p : GeqEnum × Nat, p.1.it = it ∧ GeqAt m s g p.1 →
          Safe (Legal m s) dbg (fun q : GeqEnum × Nat => GeqAt m s g q.1 ∧ (v = 0 → q.1.it.begin_ < s.chunks))
          (if p.2 ≠ not_found then do
            let b ← p.1.it.base m
            pure (p.1, u32 (p.2 + b))
          else do
            let it ← p.1.it.next m
            if it.has_next then do
              let v ← chunk_min dbg m it
              pure ({ p.1 with it := it }, v)
            else pure ({ p.1 with it := it }, not_found)) := by
        rintro ⟨e', x⟩ ⟨p1, p2⟩
        simp only at p1 p2 ⊢
        rw [p1]
        split
        · exact (runBase hr h1.toItOf).bindS (fun _ _ =>
            Runs.safe (Runs.pure ⟨p2, fun e0 => absurd e0 hv0⟩))
        · refine (h1.next hr (by omega) hlt).bindS ?_
          rintro it' ⟨h', -⟩
          have h'' : GeqAt m s g { e' with it := it' } := ⟨h', p2.blk⟩
          split
          · next hn' =>
            exact (safeChunkMin hr h'.toItOf (h'.next_lt hn')).bind (fun _ _ =>
              Runs.safe (Runs.pure ⟨h'', fun e0 => absurd e0 hv0⟩))
          · exact Runs.safe (Runs.pure ⟨h'', fun e0 => absurd e0 hv0⟩)
      refine safeCase ht ((runGeqSparse hr he hlt _).bindS (fun p hp => rest p hp)) ?_ ?_ unreachable_bind
      · refine (runNextGeqBitmap (N := 1024) (runMem hw (Nat.le_refl _) (by omega)) (by omega)).bindS
          (fun x _ => ?_)
        rw [pure_bind]
        exact rest (_, x) ⟨rfl, he⟩
      · rw [pure_bind]
        exact rest (_, _) ⟨rfl, he⟩
    · exact Runs.safe (Runs.pure ⟨he, fun e0 => absurd e0 hv0⟩)

theorem safeGeqRun (hr : Room m s g) (hg : 134217728 ≤ g) : ∀ (vs : List Nat) (e : GeqEnum),
    GeqAt m s g e → vs.Pairwise (· ≤ ·) → (0 ∈ vs → e.it.begin_ < s.chunks) →
    Safe (Legal m s) dbg (fun r => r.length = vs.length) (GeqEnum.run dbg m e vs)
  | [], _, _, _, _ => Runs.safe (Runs.ok rfl)
  | v :: vs, e, h, hs, h0 => by
    rw [List.pairwise_cons] at hs
    unfold GeqEnum.run
    refine (safeGeqNext hr hg h v (fun e0 => h0 (by simp [e0]))).bind ?_
    rintro ⟨e', x⟩ ⟨q1, q2⟩
    simp only at q1 q2 ⊢
    refine (safeGeqRun hr hg vs e' q1 hs.2 (fun hz => q2 (by have := hs.1 0 hz; omega))).bind
      (fun r hl => Runs.safe (Runs.pure ?_))
    simp only [List.length_cons, hl]

theorem runGeqNew (hr : Room m s g) :
    Runs (fun e => GeqAt m s g e ∧ e.it = s.begin) (GeqEnum.new m s) := by
  unfold GeqEnum.new SSeq.size
  exact (runCardinality hr).bind (fun n _ =>
    Runs.pure ⟨⟨Moving.start s g, fun h => absurd h (by simp)⟩, rfl⟩)

end Sliced
