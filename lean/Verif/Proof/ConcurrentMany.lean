import Verif.Model.ConcurrentMany
import Verif.Proof.Concurrent
/-! # A call of union_many or intersection that runs alone is the function it was copied from -/
namespace Sliced

variable {σ τ α β γ δ : Type}

theorem Prog.run_update (f : σ → Res (α × σ)) (s : σ) : (Prog.update f).run s = f s := by
  show (f s >>= fun p => .ok (p.1, p.2)) = _
  cases f s <;> rfl

/-! ## union_many -/

theorem uncompress_sparse_chunk_and_merge_alone (dbg : Bool) (m : Mem) (begin blocks : Nat)
    (s : MScratch) :
    (uncompress_sparse_chunk_and_merge_prog dbg m begin blocks).run s
      = (fun p => ((), ⟨p.2, p.1⟩)) <$>
        uncompress_sparse_chunk_and_merge dbg m begin blocks s.tmp s.bitmap := by
  unfold uncompress_sparse_chunk_and_merge_prog uncompress_sparse_chunk_and_merge
  rw [Prog.run_bind, Prog.run_write]
  show Prog.run _ _ = _
  refine run_bind_of (G := fun t => ((), { s with tmp := t })) ?_ (fun t => ?_)
  · rw [Prog.run_write, map_map_res]
  rw [Prog.run_write]
  dsimp only
  cases or_words_loop (vecWords t) chunk_size_in_64bit_words 0 s.bitmap <;> rfl

theorem uncompress_chunk_and_merge_alone (dbg : Bool) (m : Mem) (it : It) (s : MScratch) :
    (uncompress_chunk_and_merge_prog dbg m it).run s
      = (fun p => ((), ⟨p.2, p.1⟩)) <$> uncompress_chunk_and_merge dbg m it s.tmp s.bitmap := by
  unfold uncompress_chunk_and_merge_prog uncompress_chunk_and_merge
  refine run_lift_of (fun t => ?_)
  simp only [map_ite]
  refine run_ite ?_ (run_ite ?_ (run_ite ?_ ?_))
  · refine run_lift_of (fun b => ?_)
    exact uncompress_sparse_chunk_and_merge_alone ..
  · rw [Prog.run_write]
    cases uncompress_dense_chunk_and_merge m it.data s.bitmap <;> rfl
  · rw [Prog.run_write]
    cases uncompress_full_chunk_and_merge s.bitmap <;> rfl
  · cases dbg <;> rfl

theorem merge_loop_alone (dbg : Bool) (m : Mem) (header : Nat) (its : List It) (first : Bool)
    (s : MScratch) :
    (merge_loop_prog dbg m header its first).run s = merge_loop dbg m header its first s := by
  have map_id : ∀ r : Res (Bool × MScratch), (fun p => p) <$> r = r := fun r => by cases r <;> rfl
  induction its generalizing first s with
  | nil => rfl
  | cons it its ih =>
    unfold merge_loop_prog merge_loop
    rw [← map_id (_ >>= _)]
    refine run_lift_of (fun i => ?_)
    rw [map_id]
    refine run_ite (run_ite ?_ ?_) (ih ..)
    · rw [← map_id (_ >>= _)]
      refine run_bind_of (G := fun p => ((), { s with bitmap := p.2 })) ?_ (fun p => ?_)
      · rw [Prog.run_write, map_map_res]
      · rw [map_id]; exact ih ..
    · rw [← map_id (_ >>= _)]
      refine run_bind_of (uncompress_chunk_and_merge_alone ..) (fun p => ?_)
      rw [map_id]; exact ih ..

theorem union_many_loop_alone (dbg : Bool) (m : Mem) (f : Nat) (its : List It) (header : Nat)
    (buf : List Nat) (out : Nat) (s : MScratch) :
    (union_many_loop_prog dbg m f its header buf out).run s
      = (fun p => ((p.1, p.2.2), p.2.1)) <$> union_many_loop dbg m f its header s buf out := by
  induction f generalizing its header buf out s with
  | zero => rfl
  | succ f ih =>
    unfold union_many_loop_prog union_many_loop
    rw [map_ite]
    refine run_ite ?_ rfl
    refine run_bind_of (G := fun p => p) (r := merge_loop dbg m header its true s) ?_ ?_
    · rw [merge_loop_alone]
      cases merge_loop dbg m header its true s <;> rfl
    · rintro ⟨b, s1⟩
      refine run_bind_of (Prog.run_read ..) ?_
      rintro ⟨k, buf'⟩
      refine run_lift_of ?_
      rintro ⟨its', next⟩
      exact ih ..

theorem union_many_alone (dbg : Bool) (m : Mem) (ss : List SSeq) (buf : List Nat) (out : Nat)
    (s : MScratch) :
    (union_many_prog dbg m ss buf out).run s
      = (fun p => ((p.1, p.2.2), p.2.1)) <$> union_many dbg m ss s buf out := by
  unfold union_many_prog union_many
  refine run_lift_of (fun h => ?_)
  refine run_bind_of (union_many_loop_alone ..) ?_
  rintro ⟨q, s', buf'⟩
  rfl

/-! ## intersection -/

theorem uncompress_sparse_chunk_and_intersect_alone (dbg : Bool) (m : Mem) (begin blocks : Nat)
    (s : IScratch) :
    (uncompress_sparse_chunk_and_intersect_prog dbg m begin blocks).run s
      = (fun p => (p.1, { s with tmp := p.2.1, bitmap := p.2.2 })) <$>
        uncompress_sparse_chunk_and_intersect dbg m begin blocks s.tmp s.bitmap := by
  unfold uncompress_sparse_chunk_and_intersect_prog uncompress_sparse_chunk_and_intersect
  rw [Prog.run_bind, Prog.run_write]
  show Prog.run _ _ = _
  refine run_bind_of (G := fun t => ((), { s with tmp := t })) ?_ (fun t => ?_)
  · rw [Prog.run_write, map_map_res]
  rw [Prog.run_update]
  dsimp only
  cases and_words_loop (vecWords t) chunk_size_in_64bit_words 0 0 s.bitmap <;> rfl

theorem uncompress_chunk_and_intersect_alone (dbg : Bool) (m : Mem) (it : It) (c : Nat) (s : IScratch) :
    (uncompress_chunk_and_intersect_prog dbg m it c).run s
      = (fun p => (p.1, { s with tmp := p.2.1, bitmap := p.2.2 })) <$>
        uncompress_chunk_and_intersect dbg m it s.tmp s.bitmap c := by
  unfold uncompress_chunk_and_intersect_prog uncompress_chunk_and_intersect
  refine run_lift_of (fun t => ?_)
  simp only [map_ite]
  refine run_ite ?_ (run_ite ?_ (run_ite rfl ?_))
  · refine run_lift_of (fun b => ?_)
    exact uncompress_sparse_chunk_and_intersect_alone ..
  · rw [Prog.run_update]
    cases uncompress_dense_chunk_and_intersect m it.data s.bitmap <;> rfl
  · cases dbg <;> rfl

theorem candidate_while_alone (m : Mem) (f : Nat) (its : List It) (candidate i n : Nat) (s : IScratch) :
    (candidate_while_prog m f its candidate i n).run s
      = (fun p => (p.1, { s with headers := p.2 })) <$>
        candidate_while m f its candidate i s.headers n := by
  induction f generalizing its candidate i n s with
  | zero => rfl
  | succ f ih =>
    unfold candidate_while_prog candidate_while
    rw [map_ite]
    refine run_ite ?_ rfl
    refine run_lift_of ?_
    rintro ⟨its', candidate', i'⟩
    dsimp only
    rw [map_ite]
    refine run_ite ?_ (ih ..)
    refine run_bind_of (G := fun h => ((), { s with headers := h })) ?_ (fun h => ?_)
    · rw [Prog.run_write, map_map_res]
    refine run_lift_of (fun it0 => ?_)
    refine run_lift_of (fun it1 => ?_)
    refine run_lift_of (fun c => ?_)
    exact ih ..

theorem intersect_rest_alone (dbg : Bool) (m : Mem) (header n i : Nat) (its : List It) (c : Nat)
    (s : IScratch) :
    (intersect_rest_prog dbg m header n i its c).run s
      = (fun p => ((p.1, p.2.1), { s with tmp := p.2.2.1, bitmap := p.2.2.2 })) <$>
        intersect_rest dbg m header n i its s.tmp s.bitmap c := by
  induction n generalizing i its c s with
  | zero => rfl
  | succ n ih =>
    unfold intersect_rest_prog intersect_rest
    refine run_lift_of (fun it => ?_)
    refine run_lift_of (fun it' => ?_)
    refine run_lift_of (fun id => ?_)
    refine run_lift_of (fun _ => ?_)
    refine run_bind_of (uncompress_chunk_and_intersect_alone ..) ?_
    rintro ⟨c', t, b⟩
    dsimp only
    rw [map_ite]
    exact run_ite rfl (ih ..)

theorem intersect_headers_alone (dbg : Bool) (m : Mem) (n i : Nat) (its : List It) (buf : List Nat)
    (out : Nat) (s : IScratch) :
    (intersect_headers_prog dbg m n i its buf out).run s
      = (fun p => ((p.1, p.2.2), p.2.1)) <$> intersect_headers dbg m n i its s buf out := by
  induction n generalizing i its buf out s with
  | zero => rfl
  | succ n ih =>
    unfold intersect_headers_prog intersect_headers
    refine run_bind_of (Prog.run_read ..) (fun header => ?_)
    refine run_lift_of (fun it => ?_)
    refine run_lift_of (fun it' => ?_)
    refine run_lift_of (fun id => ?_)
    refine run_lift_of (fun _ => ?_)
    refine run_bind_of (G := fun p => (p.1, { s with bitmap := p.2 })) ?_ ?_
    · rw [Prog.run_update]
    rintro ⟨c, b⟩
    refine run_bind_of (intersect_rest_alone ..) ?_
    rintro ⟨skip, its', t, b'⟩
    dsimp only
    rw [map_ite]
    refine run_ite (ih ..) ?_
    refine run_bind_of (Prog.run_read ..) ?_
    rintro ⟨k, buf'⟩
    exact ih ..

theorem intersection_sorted_alone (dbg : Bool) (m : Mem) (ss : List SSeq) (buf : List Nat) (out : Nat)
    (s : IScratch) :
    (intersection_sorted_prog dbg m ss buf out).run s
      = (fun p => ((p.1, p.2.2), p.2.1)) <$> intersection_sorted dbg m ss s buf out := by
  unfold intersection_sorted_prog intersection_sorted
  refine run_lift_of (fun it => ?_)
  refine run_lift_of (fun c => ?_)
  refine run_bind_of (candidate_while_alone ..) ?_
  rintro ⟨n, h⟩
  refine run_bind_of (intersect_headers_alone ..) ?_
  rintro ⟨q, s', buf'⟩
  rfl

theorem intersection_alone (dbg : Bool) (sort : (SSeq → Nat) → List SSeq → List SSeq) (m : Mem)
    (ss : List SSeq) (buf : List Nat) (out : Nat) (s : IScratch) :
    (intersection_prog dbg sort m ss buf out).run s
      = (fun p => ((p.1, p.2.2.2), p.2.2.1)) <$> intersection dbg sort m ss s buf out := by
  unfold intersection_prog intersection
  refine run_lift_of (fun keys => ?_)
  rw [intersection_sorted_alone]
  dsimp only
  cases intersection_sorted dbg m
    (sort (fun q => ((keys.find? (fun p => p.1 = q)).map Prod.snd).getD 0) ss) s buf out <;> rfl

/-! ## Calls in the middle -/

/-- From the shared state `s` the call `A` gets to `A'` and leaves `s'`. -/
inductive Reaches : Prog σ α → σ → Prog σ α → σ → Prop where
  | refl (A : Prog σ α) (s : σ) : Reaches A s A s
  | step {A A₁ A' : Prog σ α} {s s₁ s' : σ} (h : A.step s = .ok (A₁, s₁)) (t : Reaches A₁ s₁ A' s') :
      Reaches A s A' s'

theorem Reaches.trans {A B C : Prog σ α} {s t u : σ} (h : Reaches A s B t) (h' : Reaches B t C u) :
    Reaches A s C u := by
  induction h with
  | refl => exact h'
  | step e _ ih => exact .step e (ih h')

theorem Reaches.of_run {A : Prog σ α} {g : α → Prog σ β} {s s' : σ} {a : α} (h : A.run s = .ok (a, s')) :
    Reaches (A >>= g) s (g a) s' := by
  induction A generalizing s with
  | ret b => cases h; exact .refl _ _
  | fail e => cases h
  | act γ f k ih =>
    have h : (f s >>= fun p => (k p.1).run p.2) = .ok (a, s') := h
    cases e : f s with
    | error x => rw [e] at h; cases h
    | ok p =>
      rw [e] at h
      refine .step (A₁ := k p.1 >>= g) (s₁ := p.2) ?_ (ih p.1 h)
      show (Prog.act γ f (fun b => (k b).bind g)).step s = _
      simp only [Prog.step, e]
      rfl

theorem Reaches.lift {r : Res α} {g : α → Prog σ β} {s s' : σ} {a : α} {C : Prog σ β} (h : r = .ok a)
    (h' : Reaches (g a) s C s') : Reaches (Prog.lift r >>= g) s C s' := by
  subst h
  exact h'

theorem Reaches.bind {A A' : Prog σ α} {g : α → Prog σ β} {s s' : σ} (h : Reaches A s A' s') :
    Reaches (A >>= g) s (A' >>= g) s' := by
  induction h with
  | refl => exact .refl _ _
  | @step A A₁ A' s s₁ s' e _ ih =>
    cases A with
    | ret b => cases e; exact ih
    | fail x => cases e
    | act γ f k =>
      simp only [Prog.step] at e
      cases ef : f s with
      | error x => rw [ef] at e; cases e
      | ok p =>
        rw [ef] at e
        cases e
        refine .step (A₁ := k p.1 >>= g) (s₁ := p.2) ?_ ih
        show (Prog.act γ f (fun b => (k b).bind g)).step s = _
        simp only [Prog.step, ef]
        rfl

theorem Reaches.first {A A' : Prog σ α} {s s' : σ} (h : Reaches A s A' s') :
    ∃ n, ∀ (t : List Bool) (B : Prog σ β),
      interleave (List.replicate n true ++ t) A B s = interleave t A' B s' := by
  induction h with
  | refl => exact ⟨0, fun _ _ => rfl⟩
  | step e _ ih =>
    obtain ⟨n, hn⟩ := ih
    refine ⟨n + 1, fun t B => ?_⟩
    rw [List.replicate_succ, List.cons_append]
    simp only [interleave, e]
    exact hn t B

theorem Reaches.second {B B' : Prog σ β} {s s' : σ} (h : Reaches B s B' s') :
    ∃ n, ∀ (t : List Bool) (A : Prog σ α),
      interleave (List.replicate n false ++ t) A B s = interleave t A B' s' := by
  induction h with
  | refl => exact ⟨0, fun _ _ => rfl⟩
  | step e _ ih =>
    obtain ⟨n, hn⟩ := ih
    refine ⟨n + 1, fun t A => ?_⟩
    rw [List.replicate_succ, List.cons_append]
    simp only [interleave, e]
    exact hn t A

end Sliced
