import Verif.Model.Concurrent
/-! # A call that runs alone is the function it was copied from -/
namespace Sliced

variable {σ τ α β γ δ : Type}

theorem Prog.run_bind (A : Prog σ α) (g : α → Prog σ β) (s : σ) :
    (A >>= g).run s = A.run s >>= fun p => (g p.1).run p.2 := by
  show (A.bind g).run s = _
  induction A generalizing s with
  | ret a => rfl
  | fail e => rfl
  | act γ f k ih =>
    show (f s >>= fun p => ((k p.1).bind g).run p.2) = (f s >>= fun p => (k p.1).run p.2) >>= _
    cases f s with
    | error e => rfl
    | ok p => exact ih p.1 p.2

theorem Prog.run_lift (r : Res α) (s : σ) :
    (Prog.lift r : Prog σ α).run s = (fun a => (a, s)) <$> r := by
  cases r <;> rfl

theorem Prog.run_pure (a : α) (s : σ) : (pure a : Prog σ α).run s = .ok (a, s) := rfl

theorem Prog.run_write (f : σ → Res σ) (s : σ) :
    (Prog.write f).run s = (fun s' => ((), s')) <$> f s := by
  show ((fun s' => ((), s')) <$> f s >>= fun p => .ok (p.1, p.2)) = _
  cases f s <;> rfl

theorem Prog.run_read (f : σ → Res α) (s : σ) :
    (Prog.read f).run s = (fun a => (a, s)) <$> f s := by
  show ((fun a => (a, s)) <$> f s >>= fun p => .ok (p.1, p.2)) = _
  cases f s <;> rfl

/-- A program that starts like the function. -/
theorem run_bind_of {A : Prog σ α} {g : α → Prog σ β} {s : σ} {G : δ → α × σ} {r : Res δ}
    {F : γ → β × σ} {h : δ → Res γ} (hA : A.run s = G <$> r)
    (hg : ∀ d, (g (G d).1).run (G d).2 = F <$> h d) : (A >>= g).run s = F <$> (r >>= h) := by
  rw [Prog.run_bind, hA]
  cases r with
  | error e => rfl
  | ok d => exact hg d

theorem run_lift_of {r : Res α} {g : α → Prog σ β} {s : σ} {F : γ → β × σ} {h : α → Res γ}
    (hg : ∀ a, (g a).run s = F <$> h a) : (Prog.lift r >>= g).run s = F <$> (r >>= h) :=
  run_bind_of (Prog.run_lift r s) hg

theorem run_ite {c : Prop} [Decidable c] {A B : Prog σ α} {s : σ} {x y : Res (α × σ)}
    (hA : A.run s = x) (hB : B.run s = y) :
    (if c then A else B).run s = if c then x else y := by
  split
  · exact hA
  · exact hB

theorem map_ite {c : Prop} [Decidable c] {F : α → β} {x y : Res α} :
    F <$> (if c then x else y) = if c then F <$> x else F <$> y := by
  split <;> rfl

theorem map_map_res {F : β → γ} {G : α → β} {x : Res α} : F <$> G <$> x = (fun a => F (G a)) <$> x := by
  cases x <;> rfl

/-! ## pairwise_union -/

theorem ds_union_block_alone (m : Mem) (l r c base : Nat) (buf : List Nat) (out : Nat)
    (s : UScratch) :
    (ds_union_block_prog m l r c base buf out).run s
      = (fun p => ((p.1, p.2.2), { s with x4 := p.2.1 })) <$>
        ds_union_block m l r c base s.x4 buf out := by
  unfold ds_union_block_prog ds_union_block
  refine run_bind_of (G := fun x => ((), { s with x4 := x })) ?_ (fun x => ?_)
  · rw [Prog.run_write, map_map_res]
  refine run_bind_of (G := fun x => ((), { s with x4 := x })) ?_ (fun x => ?_)
  · rw [Prog.run_write, map_map_res]
  rw [Prog.run_read]
  dsimp only
  cases or_bitmaps (memWords m l) (vecWords x) block_size_in_64bit_words base buf out <;> rfl

theorem union_blocks_alone (dbg : Bool) (m : Mem) (dl dr cl cr b : Nat) (buf : List Nat) (out : Nat)
    (s : UScratch) :
    (union_blocks_prog dbg m dl dr cl cr b buf out).run s
      = (fun p => ((p.1, p.2.2), { s with x4 := p.2.1 })) <$>
        union_blocks dbg m dl dr cl cr b s.x4 buf out := by
  unfold union_blocks_prog union_blocks
  simp only [map_ite]
  refine run_ite ?_ (run_ite ?_ (run_ite ?_ (run_ite ?_ ?_)))
  · rw [Prog.run_lift, map_map_res]
  · exact ds_union_block_alone ..
  · exact ds_union_block_alone ..
  · rw [Prog.run_lift, map_map_res]
  · cases dbg <;> rfl

/-- the loop state with the static array -/
def UPos.withX (u : UPos) (x4 : List Nat) : UState :=
  { l := u.l, data_l := u.data_l, r := u.r, data_r := u.data_r, out := u.out, x4 := x4,
    buf := u.buf }

/-- the loop state without the static array -/
def UState.pos (u : UState) : UPos :=
  { l := u.l, data_l := u.data_l, r := u.r, data_r := u.data_r, out := u.out, buf := u.buf }

theorem ss_union_chunk_loop_alone (dbg : Bool) (m : Mem) (el er base f : Nat) (u : UPos)
    (s : UScratch) :
    (ss_union_chunk_loop_prog dbg m el er base f u).run s
      = (fun v => (v.pos, { s with x4 := v.x4 })) <$>
        ss_union_chunk_loop dbg m el er base f (u.withX s.x4) := by
  induction f generalizing u s with
  | zero => rfl
  | succ f ih =>
    unfold ss_union_chunk_loop_prog ss_union_chunk_loop
    refine run_lift_of (fun x => ?_)
    refine run_lift_of (fun y => ?_)
    rw [map_ite, map_ite]
    refine run_ite ?_ (run_ite ?_ ?_)
    · refine run_lift_of ?_
      rintro ⟨out, buf, dl, l⟩
      dsimp only
      rw [map_ite]
      refine run_ite rfl ?_
      rw [ih]; rfl
    · refine run_lift_of ?_
      rintro ⟨out, buf, dl, l⟩
      dsimp only
      rw [map_ite]
      refine run_ite rfl ?_
      rw [ih]; rfl
    · refine run_lift_of (fun cl1 => ?_)
      refine run_lift_of (fun cr1 => ?_)
      refine run_bind_of (union_blocks_alone ..) ?_
      rintro ⟨n, x4, buf⟩
      dsimp only
      rw [map_ite]
      refine run_ite rfl ?_
      rw [ih]; rfl

theorem ss_union_chunk_alone (dbg : Bool) (m : Mem) (l r bl br base : Nat) (buf : List Nat)
    (out : Nat) (s : UScratch) :
    (ss_union_chunk_prog dbg m l r bl br base buf out).run s
      = (fun p => ((p.1, p.2.2), { s with x4 := p.2.1 })) <$>
        ss_union_chunk dbg m l r bl br base s.x4 buf out := by
  unfold ss_union_chunk_prog ss_union_chunk
  refine run_lift_of (fun _ => ?_)
  refine run_lift_of (fun _ => ?_)
  dsimp only
  refine run_bind_of (ss_union_chunk_loop_alone ..) (fun v => ?_)
  refine run_lift_of ?_
  rintro ⟨o, buf⟩
  refine run_lift_of ?_
  rintro ⟨o, buf⟩
  rfl

theorem ds_union_chunk_alone (dbg : Bool) (m : Mem) (l r br base : Nat) (buf : List Nat)
    (out : Nat) (s : UScratch) :
    (ds_union_chunk_prog dbg m l r br base buf out).run s
      = (fun p => ((p.1, p.2.2), { s with x := p.2.1 })) <$>
        ds_union_chunk dbg m l r br base s.x buf out := by
  unfold ds_union_chunk_prog ds_union_chunk
  rw [Prog.run_bind, Prog.run_write]
  show Prog.run _ _ = _
  refine run_bind_of (G := fun x => ((), { s with x := x })) ?_ (fun x => ?_)
  · rw [Prog.run_write, map_map_res]
  rw [Prog.run_read]
  dsimp only
  cases or_bitmaps (memWords m l) (vecWords x) chunk_size_in_64bit_words base buf out <;> rfl

theorem union_chunks_alone (dbg : Bool) (m : Mem) (il ir : It) (base : Nat) (buf : List Nat)
    (out : Nat) (s : UScratch) :
    (union_chunks_prog dbg m il ir base buf out).run s
      = (fun p => ((p.1, p.2.2), p.2.1)) <$> union_chunks dbg m il ir base s buf out := by
  unfold union_chunks_prog union_chunks
  refine run_lift_of (fun tl => ?_)
  refine run_lift_of (fun tr => ?_)
  dsimp only
  simp only [map_ite]
  refine run_ite ?_ (run_ite ?_ (run_ite ?_ (run_ite ?_ (run_ite ?_ (run_ite ?_ (run_ite ?_
    (run_ite ?_ (run_ite ?_ ?_))))))))
  · refine run_lift_of (fun bl => ?_)
    refine run_lift_of (fun br => ?_)
    simp only [map_ite, map_map_res]
    exact run_ite (ss_union_chunk_alone ..) (ss_union_chunk_alone ..)
  · refine run_lift_of (fun bl => ?_)
    simp only [map_map_res]
    exact ds_union_chunk_alone ..
  · rw [Prog.run_lift, map_map_res]
  · refine run_lift_of (fun bl => ?_)
    simp only [map_map_res]
    exact ds_union_chunk_alone ..
  · rw [Prog.run_lift, map_map_res]
  · rw [Prog.run_lift, map_map_res]
  · rw [Prog.run_lift, map_map_res]
  · rw [Prog.run_lift, map_map_res]
  · rw [Prog.run_lift, map_map_res]
  · cases dbg <;> rfl

theorem pairwise_union_loop_alone (dbg : Bool) (m : Mem) (f : Nat) (il ir : It) (buf : List Nat)
    (out : Nat) (s : UScratch) :
    (pairwise_union_loop_prog dbg m f il ir buf out).run s
      = (fun p => ((p.1, p.2.1, p.2.2.1, p.2.2.2.2), p.2.2.2.1)) <$>
        pairwise_union_loop dbg m f il ir s buf out := by
  induction f generalizing il ir buf out s with
  | zero => rfl
  | succ f ih =>
    unfold pairwise_union_loop_prog pairwise_union_loop
    refine run_lift_of (fun x => ?_)
    refine run_lift_of (fun y => ?_)
    dsimp only
    rw [map_ite, map_ite]
    refine run_ite ?_ (run_ite ?_ ?_)
    · refine run_bind_of (union_chunks_alone ..) ?_
      rintro ⟨n, s', buf⟩
      refine run_lift_of (fun il => ?_)
      refine run_lift_of (fun ir => ?_)
      rw [map_ite]
      exact run_ite rfl (ih ..)
    · refine run_lift_of ?_
      rintro ⟨n, buf⟩
      refine run_lift_of (fun il => ?_)
      rw [map_ite]
      exact run_ite rfl (ih ..)
    · refine run_lift_of ?_
      rintro ⟨n, buf⟩
      refine run_lift_of (fun il => ?_)
      rw [map_ite]
      exact run_ite rfl (ih ..)

theorem pairwise_union_alone (dbg : Bool) (m : Mem) (l r : SSeq) (buf : List Nat) (out : Nat)
    (s : UScratch) :
    (pairwise_union_prog dbg m l r buf out).run s
      = (fun p => ((p.1, p.2.2), p.2.1)) <$> pairwise_union dbg m l r s buf out := by
  unfold pairwise_union_prog pairwise_union
  refine run_bind_of (pairwise_union_loop_alone ..) ?_
  rintro ⟨il, ir, o, s', buf⟩
  refine run_lift_of ?_
  rintro ⟨o, buf⟩
  refine run_lift_of ?_
  rintro ⟨o, buf⟩
  rfl

/-! ## pairwise_intersection -/

theorem ds_intersect_chunk_alone (dbg : Bool) (m : Mem) (l r br base : Nat) (buf : List Nat)
    (out : Nat) (x : List Nat) :
    (ds_intersect_chunk_prog dbg m l r br base buf out).run x
      = (fun p => ((p.1, p.2.2), p.2.1)) <$> ds_intersect_chunk dbg m l r br base x buf out := by
  unfold ds_intersect_chunk_prog ds_intersect_chunk
  rw [Prog.run_bind, Prog.run_write]
  show Prog.run _ _ = _
  refine run_bind_of (G := fun x => ((), x)) (Prog.run_write _ _) (fun x => ?_)
  rw [Prog.run_read]
  dsimp only
  cases and_bitmaps (memWords m l) (vecWords x) chunk_size_in_64bit_words base buf out <;> rfl

theorem intersect_chunks_alone (dbg : Bool) (tab : Nat → List Nat) (m : Mem) (il ir : It)
    (base : Nat) (buf : List Nat) (out : Nat) (x : List Nat) :
    (intersect_chunks_prog dbg tab m il ir base buf out).run x
      = (fun p => ((p.1, p.2.2), p.2.1)) <$> intersect_chunks dbg tab m il ir base x buf out := by
  unfold intersect_chunks_prog intersect_chunks
  refine run_lift_of (fun tl => ?_)
  refine run_lift_of (fun tr => ?_)
  dsimp only
  simp only [map_ite]
  refine run_ite ?_ (run_ite ?_ (run_ite ?_ (run_ite ?_ (run_ite ?_ (run_ite ?_ (run_ite ?_
    (run_ite ?_ (run_ite ?_ ?_))))))))
  · refine run_lift_of (fun bl => ?_)
    refine run_lift_of (fun br => ?_)
    simp only [map_ite, map_map_res]
    exact run_ite (Prog.run_lift _ _) (Prog.run_lift _ _)
  · refine run_lift_of (fun bl => ?_)
    exact ds_intersect_chunk_alone ..
  · refine run_lift_of (fun bl => ?_)
    rw [Prog.run_lift, map_map_res]
  · refine run_lift_of (fun bl => ?_)
    exact ds_intersect_chunk_alone ..
  · rw [Prog.run_lift, map_map_res]
  · rw [Prog.run_lift, map_map_res]
  · refine run_lift_of (fun bl => ?_)
    rw [Prog.run_lift, map_map_res]
  · rw [Prog.run_lift, map_map_res]
  · rw [Prog.run_lift, map_map_res]
  · cases dbg <;> rfl

theorem pairwise_intersection_loop_alone (dbg : Bool) (tab : Nat → List Nat) (m : Mem) (f : Nat)
    (il ir : It) (buf : List Nat) (out : Nat) (x : List Nat) :
    (pairwise_intersection_loop_prog dbg tab m f il ir buf out).run x
      = (fun p => ((p.1, p.2.2), p.2.1)) <$>
        pairwise_intersection_loop dbg tab m f il ir x buf out := by
  induction f generalizing il ir buf out x with
  | zero => rfl
  | succ f ih =>
    unfold pairwise_intersection_loop_prog pairwise_intersection_loop
    rw [map_ite]
    refine run_ite ?_ rfl
    refine run_lift_of (fun _ => ?_)
    refine run_lift_of (fun _ => ?_)
    dsimp only
    rw [map_ite, map_ite]
    refine run_ite ?_ (run_ite ?_ ?_)
    · refine run_bind_of (intersect_chunks_alone ..) ?_
      rintro ⟨n, s', buf⟩
      refine run_lift_of (fun il => ?_)
      refine run_lift_of (fun ir => ?_)
      exact ih ..
    · refine run_lift_of (fun il => ?_)
      exact ih ..
    · refine run_lift_of (fun il => ?_)
      exact ih ..

theorem pairwise_intersection_alone (dbg : Bool) (tab : Nat → List Nat) (m : Mem) (l r : SSeq)
    (buf : List Nat) (out : Nat) (x : List Nat) :
    (pairwise_intersection_prog dbg tab m l r buf out).run x
      = (fun p => ((p.1, p.2.2), p.2.1)) <$> pairwise_intersection dbg tab m l r x buf out := by
  unfold pairwise_intersection_prog pairwise_intersection
  refine run_bind_of (pairwise_intersection_loop_alone ..) ?_
  rintro ⟨o, s', buf⟩
  rfl

section
variable {σ α β : Type}

theorem Prog.bind_ret {A : Prog σ α} {g : α → Prog σ α} (h : ∀ a, g a = .ret a) : A >>= g = A := by
  show A.bind g = A
  induction A with
  | ret a => exact h a
  | fail e => rfl
  | act γ f k ih =>
    simp only [Prog.bind]
    congr 1
    funext b
    exact ih b

theorem lift_ok_bind (a : α) (g : α → Prog σ β) : (Prog.lift (.ok a) : Prog σ α) >>= g = g a := rfl

theorem ret_bind (a : α) (g : α → Prog σ β) : (Prog.ret a : Prog σ α) >>= g = g a := rfl

theorem bind_assoc_prog {γ : Type} (A : Prog σ α) (g : α → Prog σ β) (h : β → Prog σ γ) :
    A >>= g >>= h = A >>= fun a => g a >>= h := by
  show (A.bind g).bind h = A.bind (fun a => (g a).bind h)
  induction A with
  | ret a => rfl
  | fail e => rfl
  | act γ f k ih =>
    simp only [Prog.bind]
    congr 1
    funext b
    exact ih b

end

end Sliced
