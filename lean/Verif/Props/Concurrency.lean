import Verif.Proof.Concurrent
import Verif.Props.SetOps
import Verif.Props.StoredMany
import Verif.Props.Size
/-!
# C34: set operations at the same time

The programs of `Verif/Model/Concurrent.lean`, for two calls with different arguments and output
buffers.  `true` in a schedule is a step of the first call, `false` one of the second.
-/
namespace Sliced

variable {σ τ α β : Type} {dbg dbg₁ dbg₂ dbg₃ dbg₄ : Bool} {m : Mem}

/-! ## The programs are the functions -/

/-- C34: a call of `pairwise_union` that is not interrupted is the function of the model. -/
theorem C34_union_alone (l r : SSeq) (buf : List Nat) (out : Nat) (s : UScratch) :
    (pairwise_union_prog dbg m l r buf out).run s
      = (fun p => ((p.1, p.2.2), p.2.1)) <$> pairwise_union dbg m l r s buf out :=
  pairwise_union_alone ..

/-- C34: the same for `pairwise_intersection`. -/
theorem C34_intersection_alone (tab : Nat → List Nat) (l r : SSeq) (buf : List Nat) (out : Nat)
    (x : List Nat) :
    (pairwise_intersection_prog dbg tab m l r buf out).run x
      = (fun p => ((p.1, p.2.2), p.2.1)) <$> pairwise_intersection dbg tab m l r x buf out :=
  pairwise_intersection_alone ..

/-! ## One call after the other -/

theorem Prog.step_run {A A' : Prog σ α} {s s' : σ} (h : A.step s = .ok (A', s')) :
    A'.run s' = A.run s := by
  cases A with
  | ret a => cases h; rfl
  | fail e => cases h
  | act γ f k =>
    simp only [Prog.step] at h
    cases e : f s with
    | error x => rw [e] at h; cases h
    | ok p =>
      rw [e] at h
      cases h
      show _ = f s >>= fun p => (k p.1).run p.2
      rw [e]; rfl

theorem interleave_first {n : Nat} {t : List Bool} {A : Prog σ α} {B : Prog σ β} {s : σ}
    {R : Prog σ α × Prog σ β × σ} (h : interleave (List.replicate n true ++ t) A B s = .ok R) :
    ∃ A' s', A'.run s' = A.run s ∧ interleave t A' B s' = .ok R := by
  induction n generalizing A s with
  | zero => exact ⟨A, s, rfl, h⟩
  | succ n ih =>
    rw [List.replicate_succ, List.cons_append] at h
    simp only [interleave] at h
    cases e : A.step s with
    | error x => rw [e] at h; cases h
    | ok p =>
      rw [e] at h
      obtain ⟨A', s', h1, h2⟩ := ih h
      exact ⟨A', s', by rw [h1, Prog.step_run e], h2⟩

theorem interleave_second {k : Nat} {A : Prog σ α} {B : Prog σ β} {s : σ}
    {R : Prog σ α × Prog σ β × σ} (h : interleave (List.replicate k false) A B s = .ok R) :
    R.1 = A ∧ R.2.1.run R.2.2 = B.run s := by
  induction k generalizing B s with
  | zero => cases h; exact ⟨rfl, rfl⟩
  | succ n ih =>
    rw [List.replicate_succ] at h
    simp only [interleave] at h
    cases e : B.step s with
    | error x => rw [e] at h; cases h
    | ok p =>
      rw [e] at h
      obtain ⟨h1, h2⟩ := ih h
      exact ⟨h1, by rw [h2, Prog.step_run e]⟩

theorem interleave_finish {t : List Bool} {A : Prog σ α} {B : Prog σ β} {s s' : σ} {a : α}
    (h : A.run s = .ok (a, s')) :
    ∃ n, interleave (List.replicate n true ++ t) A B s = interleave t (.ret a) B s' := by
  induction A generalizing s with
  | ret b => cases h; exact ⟨0, rfl⟩
  | fail e => cases h
  | act γ f k ih =>
    cases e : f s with
    | error x =>
      exfalso
      have h' : (f s >>= fun p => (k p.1).run p.2) = .ok (a, s') := h
      rw [e] at h'; cases h'
    | ok p =>
      have h' : (f s >>= fun p => (k p.1).run p.2) = .ok (a, s') := h
      rw [e] at h'
      obtain ⟨n, hn⟩ := ih p.1 h'
      refine ⟨n + 1, ?_⟩
      rw [List.replicate_succ, List.cons_append]
      simp only [interleave, Prog.step, e]
      exact hn

theorem interleave_finish_second {A : Prog σ α} {B : Prog σ β} {s s' : σ} {b : β}
    (h : B.run s = .ok (b, s')) :
    ∃ n, interleave (List.replicate n false) A B s = .ok (A, .ret b, s') := by
  induction B generalizing s with
  | ret b => cases h; exact ⟨0, rfl⟩
  | fail e => cases h
  | act γ f k ih =>
    cases e : f s with
    | error x =>
      exfalso
      have h' : (f s >>= fun p => (k p.1).run p.2) = .ok (b, s') := h
      rw [e] at h'; cases h'
    | ok p =>
      have h' : (f s >>= fun p => (k p.1).run p.2) = .ok (b, s') := h
      rw [e] at h'
      obtain ⟨n, hn⟩ := ih p.1 h'
      refine ⟨n + 1, ?_⟩
      rw [List.replicate_succ]
      simp only [interleave, Prog.step, e]
      exact hn

/-- Two sequences that `pairwise_union` accepts: valid lists, stored apart from each other or
identical. -/
structure Operands (dbg : Bool) (m : Mem) (xs ys : List Nat) (l r : SSeq) : Prop where
  valid : Valid xs ∧ Valid ys
  stored : ∃ a b bx bY, StoredAt dbg xs 31 m a bx l ∧ StoredAt dbg ys 31 m b bY r ∧
    (a = b ∨ a + bx.length ≤ b ∨ b + bY.length ≤ a)

theorem union_alone_right {xs ys Z : List Nat} {l r : SSeq} {out : List Nat} {s : UScratch}
    (h : Operands dbg₁ m xs ys l r) (hs : s.Ok) (hZ : Enumerates Z (fun v => v ∈ xs ∨ v ∈ ys))
    (hcap : Z.length + 23 ≤ out.length) :
    ∃ out' s', (pairwise_union_prog dbg m l r out 0).run s = .ok ((Z.length, out'), s') ∧ s'.Ok ∧
      Wrote out 0 Z 23 out' := by
  obtain ⟨a, b, bx, bY, h1, h2, h3⟩ := h.stored
  obtain ⟨s', out', e, hs', w⟩ := C11_union (dbg := dbg) h.valid.1 h.valid.2 h1 h2 h3 hZ s hs out 0
    (by omega)
  refine ⟨out', s', ?_, hs', w⟩
  rw [C34_union_alone, e]; rfl

/-- C34: two unions, one after the other.  Whenever the first call has finished before the second
one starts, both return the right result. -/
theorem C34_one_after_other {xs ys xs' ys' Z Z' out out' : List Nat} {l r l' r' : SSeq}
    (h : Operands dbg₁ m xs ys l r) (h' : Operands dbg₂ m xs' ys' l' r')
    (hZ : Enumerates Z (fun v => v ∈ xs ∨ v ∈ ys)) (hZ' : Enumerates Z' (fun v => v ∈ xs' ∨ v ∈ ys'))
    (s : UScratch) (hs : s.Ok) (hcap : Z.length + 23 ≤ out.length)
    (hcap' : Z'.length + 23 ≤ out'.length) :
    (∃ n k R, interleave (List.replicate n true ++ List.replicate k false)
        (pairwise_union_prog dbg m l r out 0) (pairwise_union_prog dbg m l' r' out' 0) s = .ok R ∧
      ∃ a b, R.1 = .ret a ∧ R.2.1 = .ret b) ∧
    ∀ n k a b t, interleave (List.replicate n true ++ List.replicate k false)
        (pairwise_union_prog dbg m l r out 0) (pairwise_union_prog dbg m l' r' out' 0) s
          = .ok (.ret a, .ret b, t) →
      a.1 = Z.length ∧ Wrote out 0 Z 23 a.2 ∧ b.1 = Z'.length ∧ Wrote out' 0 Z' 23 b.2 := by
  obtain ⟨o1, s1, e1, hs1, w1⟩ := union_alone_right (dbg := dbg) h hs hZ hcap
  obtain ⟨o2, s2, e2, hs2, w2⟩ := union_alone_right (dbg := dbg) h' hs1 hZ' hcap'
  constructor
  · obtain ⟨k, hk⟩ := interleave_finish_second (A := (.ret (Z.length, o1) :
      Prog UScratch (Nat × List Nat))) e2
    obtain ⟨n, hn⟩ := interleave_finish (t := List.replicate k false)
      (B := pairwise_union_prog dbg m l' r' out' 0) e1
    exact ⟨n, k, _, hn.trans hk, _, _, rfl, rfl⟩
  · intro n k a b t e
    obtain ⟨A', s', hA, hi⟩ := interleave_first e
    obtain ⟨hA', hB⟩ := interleave_second hi
    simp only at hA' hB
    subst hA'
    rw [e1] at hA
    have hA : (.ok (a, s') : Res _) = .ok ((Z.length, o1), s1) := hA
    cases hA
    have hB : (.ok (b, t) : Res _) = _ := hB
    rw [e2] at hB
    cases hB
    exact ⟨rfl, w1, rfl, w2⟩

/-- C34: the same for two intersections. -/
theorem C34_one_after_other_intersection {tab : Nat → List Nat} (ht : TabOk tab)
    {xs ys xs' ys' Z Z' out out' : List Nat} {l r l' r' : SSeq}
    (hx : Valid xs) (hy : Valid ys) (hl : Stored dbg₁ xs 31 m l) (hr : Stored dbg₂ ys 31 m r)
    (hx' : Valid xs') (hy' : Valid ys') (hl' : Stored dbg₃ xs' 31 m l')
    (hr' : Stored dbg₄ ys' 31 m r')
    (hZ : Enumerates Z (fun v => v ∈ xs ∧ v ∈ ys)) (hZ' : Enumerates Z' (fun v => v ∈ xs' ∧ v ∈ ys'))
    (x : List Nat) (hsx : x.length = 1024) (hcap : Z.length + 23 ≤ out.length)
    (hcap' : Z'.length + 23 ≤ out'.length) :
    (∃ n k R, interleave (List.replicate n true ++ List.replicate k false)
        (pairwise_intersection_prog dbg tab m l r out 0)
        (pairwise_intersection_prog dbg tab m l' r' out' 0) x = .ok R ∧
      ∃ a b, R.1 = .ret a ∧ R.2.1 = .ret b) ∧
    ∀ n k a b t, interleave (List.replicate n true ++ List.replicate k false)
        (pairwise_intersection_prog dbg tab m l r out 0)
        (pairwise_intersection_prog dbg tab m l' r' out' 0) x = .ok (.ret a, .ret b, t) →
      a.1 = Z.length ∧ Wrote out 0 Z 23 a.2 ∧ b.1 = Z'.length ∧ Wrote out' 0 Z' 23 b.2 := by
  obtain ⟨x1, o1, f1, hx1, w1⟩ := C10_intersection (dbg := dbg) ht hx hy hl hr hZ x hsx out 0
    (by omega)
  obtain ⟨x2, o2, f2, -, w2⟩ := C10_intersection (dbg := dbg) ht hx' hy' hl' hr' hZ' x1 hx1 out' 0
    (by omega)
  have e1 : (pairwise_intersection_prog dbg tab m l r out 0).run x = .ok ((Z.length, o1), x1) := by
    rw [C34_intersection_alone, f1]; rfl
  have e2 : (pairwise_intersection_prog dbg tab m l' r' out' 0).run x1
      = .ok ((Z'.length, o2), x2) := by
    rw [C34_intersection_alone, f2]; rfl
  constructor
  · obtain ⟨k, hk⟩ := interleave_finish_second (A := (.ret (Z.length, o1) :
      Prog (List Nat) (Nat × List Nat))) e2
    obtain ⟨n, hn⟩ := interleave_finish (t := List.replicate k false)
      (B := pairwise_intersection_prog dbg tab m l' r' out' 0) e1
    exact ⟨n, k, _, hn.trans hk, _, _, rfl, rfl⟩
  · intro n k a b t e
    obtain ⟨A', s', hA, hi⟩ := interleave_first e
    obtain ⟨hA', hB⟩ := interleave_second hi
    simp only at hA' hB
    subst hA'
    rw [e1] at hA
    have hA : (.ok (a, s') : Res _) = .ok ((Z.length, o1), x1) := hA
    cases hA
    have hB : (.ok (b, t) : Res _) = _ := hB
    rw [e2] at hB
    cases hB
    exact ⟨rfl, w1, rfl, w2⟩

/-! ## A union and an intersection at the same time -/

theorem onFst_step {A : Prog σ α} {s : σ} {u : τ} :
    (A.onFst : Prog (σ × τ) α).step (s, u)
      = match A.step s with
        | .ok p => .ok (p.1.onFst, (p.2, u))
        | .error e => .error e := by
  cases A with
  | ret a => rfl
  | fail e => rfl
  | act γ f k =>
    simp only [Prog.onFst, Prog.step]
    cases f s <;> rfl

theorem onSnd_step {B : Prog τ β} {s : σ} {u : τ} :
    (B.onSnd : Prog (σ × τ) β).step (s, u)
      = match B.step u with
        | .ok p => .ok (p.1.onSnd, (s, p.2))
        | .error e => .error e := by
  cases B with
  | ret a => rfl
  | fail e => rfl
  | act γ f k =>
    simp only [Prog.onSnd, Prog.step]
    cases f u <;> rfl

theorem Prog.step_ok {A : Prog σ α} {s : σ} {p : α × σ} (h : A.run s = .ok p) :
    ∃ q, A.step s = .ok q := by
  cases A with
  | ret a => exact ⟨_, rfl⟩
  | fail e => cases h
  | act γ f k =>
    simp only [Prog.step]
    have h' : (f s >>= fun p => (k p.1).run p.2) = .ok p := h
    cases e : f s with
    | error x => rw [e] at h'; cases h'
    | ok q => exact ⟨_, rfl⟩

theorem onFst_ret {A : Prog σ α} {a : α} (h : (A.onFst : Prog (σ × τ) α) = .ret a) : A = .ret a := by
  cases A with
  | ret b => cases h; rfl
  | fail e => cases h
  | act γ f k => cases h

theorem onSnd_ret {B : Prog τ β} {b : β} (h : (B.onSnd : Prog (σ × τ) β) = .ret b) : B = .ret b := by
  cases B with
  | ret b => cases h; rfl
  | fail e => cases h
  | act γ f k => cases h

/-- Calls on different shared objects do not influence each other, whatever the schedule. -/
theorem interleave_separate (sched : List Bool) {A : Prog σ α} {B : Prog τ β} {s : σ} {u : τ}
    {p : α × σ} {q : β × τ} (hA : A.run s = .ok p) (hB : B.run u = .ok q) :
    ∃ (A' : Prog σ α) (B' : Prog τ β) (s' : σ) (u' : τ),
      interleave sched A.onFst B.onSnd (s, u) = .ok (A'.onFst, B'.onSnd, (s', u')) ∧
      A'.run s' = .ok p ∧ B'.run u' = .ok q := by
  induction sched generalizing A B s u with
  | nil => exact ⟨A, B, s, u, rfl, hA, hB⟩
  | cons b t ih =>
    cases b with
    | true =>
      obtain ⟨r, hr⟩ := Prog.step_ok hA
      have h1 : r.1.run r.2 = .ok p := by rw [Prog.step_run hr, hA]
      obtain ⟨A', B', s', u', e, h2, h3⟩ := ih h1 hB
      refine ⟨A', B', s', u', ?_, h2, h3⟩
      simp only [interleave, onFst_step, hr]
      exact e
    | false =>
      obtain ⟨r, hr⟩ := Prog.step_ok hB
      have h1 : r.1.run r.2 = .ok q := by rw [Prog.step_run hr, hB]
      obtain ⟨A', B', s', u', e, h2, h3⟩ := ih hA h1
      refine ⟨A', B', s', u', ?_, h2, h3⟩
      simp only [interleave, onSnd_step, hr]
      exact e

/-- C34: a union and an intersection use different scratch objects.  Under every schedule neither
fails, and whichever of them has finished has the right result. -/
theorem C34_union_with_intersection {tab : Nat → List Nat} (ht : TabOk tab)
    {xs ys xs' ys' Z Z' out out' : List Nat} {l r l' r' : SSeq}
    (h : Operands dbg₁ m xs ys l r) (hx' : Valid xs') (hy' : Valid ys')
    (hl' : Stored dbg₂ xs' 31 m l') (hr' : Stored dbg₃ ys' 31 m r')
    (hZ : Enumerates Z (fun v => v ∈ xs ∨ v ∈ ys)) (hZ' : Enumerates Z' (fun v => v ∈ xs' ∧ v ∈ ys'))
    (s : UScratch) (hs : s.Ok) (x : List Nat) (hx : x.length = 1024)
    (hcap : Z.length + 23 ≤ out.length) (hcap' : Z'.length + 23 ≤ out'.length)
    (sched : List Bool) :
    ∃ A B w, interleave sched (pairwise_union_prog dbg m l r out 0).onFst
        (pairwise_intersection_prog dbg tab m l' r' out' 0).onSnd (s, x) = .ok (A, B, w) ∧
      (∀ a, A = .ret a → a.1 = Z.length ∧ Wrote out 0 Z 23 a.2) ∧
      (∀ b, B = .ret b → b.1 = Z'.length ∧ Wrote out' 0 Z' 23 b.2) := by
  obtain ⟨o1, s1, e1, -, w1⟩ := union_alone_right (dbg := dbg) h hs hZ hcap
  obtain ⟨x2, o2, e2, -, w2⟩ := C10_intersection (dbg := dbg) ht hx' hy' hl' hr' hZ' x hx out' 0
    (by omega)
  have e2' : (pairwise_intersection_prog dbg tab m l' r' out' 0).run x
      = .ok ((Z'.length, o2), x2) := by
    rw [C34_intersection_alone, e2]; rfl
  obtain ⟨A, B, s', u', e, hA, hB⟩ := interleave_separate sched e1 e2'
  refine ⟨_, _, _, e, ?_, ?_⟩
  · intro a ha
    rw [onFst_ret ha] at hA
    have hA : (.ok (a, s') : Res _) = _ := hA
    cases hA
    exact ⟨rfl, w1⟩
  · intro b hb
    rw [onSnd_ret hb] at hB
    have hB : (.ok (b, u') : Res _) = _ := hB
    cases hB
    exact ⟨rfl, w2⟩

/-! ## Two unions, or two intersections, at the same time -/

/-- The union of a slice stored as a bitmap with one stored as blocks goes through the scratch
buffer. -/
theorem union_form {l r : SSeq} {i : Nat} {vs : List Nat} {bs : List Blk}
    (hl : SeqAt 31 m l [⟨i, .dense vs⟩]) (hr : SeqAt 31 m r [⟨i, .sparse bs⟩]) (buf : List Nat) :
    pairwise_union_prog dbg m l r buf 0
      = ds_union_chunk_prog dbg m l.data r.data bs.length (i * 65536) buf 0 := by
  have il := hl.begin
  have ir := hr.begin
  have hi := hl.wf.head.1
  simp only at hi
  obtain ⟨il1, nl, hl1, -⟩ := il.next
  obtain ⟨ir1, nr, hr1, -⟩ := ir.next
  have hL := il.type_dense rfl
  have hR := ir.type_sparse rfl
  have hB := ir.blocks_sparse rfl
  have c1 : l.chunks = 1 := hl.chunks
  have c2 : r.chunks = 1 := hr.chunks
  have key : union_chunks_prog dbg m l.begin r.begin (i * 65536) buf 0
      = ds_union_chunk_prog dbg m l.data r.data bs.length (i * 65536) buf 0 := by
    unfold union_chunks_prog
    rw [hL, lift_ok_bind, hR, lift_ok_bind]
    simp only [hB, lift_ok_bind, chunk_pair, type_sparse, type_dense, type_full, Nat.reduceMul,
      Nat.reduceAdd, Nat.reduceEqDiff, if_true, if_false, ite_true]
    rfl
  have step : pairwise_union_loop_prog dbg m (l.chunks + r.chunks + 1) l.begin r.begin buf 0
      = ds_union_chunk_prog dbg m l.data r.data bs.length (i * 65536) buf 0 >>= fun p =>
        .ret (il1, ir1, 0 + p.1, p.2) := by
    unfold pairwise_union_loop_prog
    rw [il.id, lift_ok_bind, ir.id, lift_ok_bind]
    simp only [u16_lt (show i < 65536 by omega), if_true,
      u32_lt (show i * 65536 < 4294967296 by omega), key]
    congr 1
    funext p
    obtain ⟨n, buf⟩ := p
    rw [nl, nr]
    simp only [lift_ok_bind]
    rw [if_pos (by rw [hl1.has_next_nil]; rfl)]
    rfl
  unfold pairwise_union_prog
  rw [step, bind_assoc_prog]
  apply Prog.bind_ret
  rintro ⟨n, buf⟩
  rw [ret_bind]
  simp only
  have d1 : ∀ b o, decode_tail dbg m (l.chunks + 1) il1 b o = .ok (o, b) := by
    intro b o
    unfold decode_tail
    rw [if_neg (by rw [hl1.has_next_nil]; simp)]
  have d2 : ∀ b o, decode_tail dbg m (r.chunks + 1) ir1 b o = .ok (o, b) := by
    intro b o
    unfold decode_tail
    rw [if_neg (by rw [hr1.has_next_nil]; simp)]
  rw [d1, lift_ok_bind]
  simp only
  rw [d2, lift_ok_bind]
  simp only [Nat.zero_add, Nat.sub_zero]
  rfl

theorem intersection_form {tab : Nat → List Nat} {l r : SSeq} {i : Nat} {vs : List Nat}
    {bs : List Blk} (hl : SeqAt 31 m l [⟨i, .dense vs⟩]) (hr : SeqAt 31 m r [⟨i, .sparse bs⟩])
    (buf : List Nat) :
    pairwise_intersection_prog dbg tab m l r buf 0
      = ds_intersect_chunk_prog dbg m l.data r.data bs.length (i * 65536) buf 0 := by
  have il := hl.begin
  have ir := hr.begin
  have hi := hl.wf.head.1
  simp only at hi
  obtain ⟨il1, nl, hl1, -⟩ := il.next
  obtain ⟨ir1, nr, hr1, -⟩ := ir.next
  have hL := il.type_dense rfl
  have hR := ir.type_sparse rfl
  have hB := ir.blocks_sparse rfl
  have c1 : l.chunks = 1 := hl.chunks
  have c2 : r.chunks = 1 := hr.chunks
  have key : intersect_chunks_prog dbg tab m l.begin r.begin (i * 65536) buf 0
      = ds_intersect_chunk_prog dbg m l.data r.data bs.length (i * 65536) buf 0 := by
    unfold intersect_chunks_prog
    rw [hL, lift_ok_bind, hR, lift_ok_bind]
    simp only [hB, lift_ok_bind, chunk_pair, type_sparse, type_dense, type_full, Nat.reduceMul,
      Nat.reduceAdd, Nat.reduceEqDiff, if_true, if_false, ite_true]
    rfl
  unfold pairwise_intersection_prog
  rw [c1, c2]
  unfold pairwise_intersection_loop_prog
  rw [il.has_next, ir.has_next]
  simp only [Bool.and_self, if_true]
  rw [il.id, lift_ok_bind, ir.id, lift_ok_bind]
  simp only [u16_lt (show i < 65536 by omega), if_true,
    u32_lt (show i * 65536 < 4294967296 by omega), key]
  rw [bind_assoc_prog]
  apply Prog.bind_ret
  rintro ⟨n, buf⟩
  rw [nl, nr]
  simp only [lift_ok_bind]
  unfold pairwise_intersection_loop_prog
  rw [if_neg (by rw [hl1.has_next_nil]; simp)]
  simp only [Nat.zero_add]
  rfl

/-- A list within one slice. -/
theorem chunksOf_one {xs : List Nat} {i : Nat} (hv : Valid xs) (h : ∀ x ∈ xs, x / 65536 = i) :
    chunksOf xs = [⟨i, bodyOf (chunkVals xs i)⟩] := by
  have hid := chunksOf_map_id xs
  have hs : slicesOf xs = [i] := by
    refine (slicesOf_enumerates hv).unique ⟨by simp, fun j => ?_⟩
    rw [List.mem_singleton]
    constructor
    · rintro rfl
      obtain ⟨x, hx⟩ := List.exists_mem_of_ne_nil _ hv.1
      exact ⟨x, hx, h x hx⟩
    · rintro ⟨x, hx, rfl⟩
      exact h x hx
  rw [hs] at hid
  cases e : chunksOf xs with
  | nil => rw [e] at hid; simp at hid
  | cons c t =>
    rw [e] at hid
    simp only [List.map_cons, List.cons.injEq, List.map_eq_nil_iff] at hid
    obtain ⟨h1, rfl⟩ := hid
    have hc : c ∈ chunksOf xs := by rw [e]; exact List.mem_cons_self ..
    have := (mem_chunksTo.mp hc).2.1
    rw [h1] at this
    cases c
    simp only at this h1
    rw [h1, this]

theorem sliceCard_one {xs : List Nat} {i : Nat} (h : ∀ x ∈ xs, x / 65536 = i) :
    sliceCard xs i = xs.length := by
  unfold sliceCard
  rw [List.filter_eq_self.mpr]
  intro x hx
  simp [h x hx]

theorem chunkVals_elems {xs : List Nat} {i : Nat} (h : ∀ x ∈ xs, x / 65536 = i) :
    (chunkVals xs i).map (i * 65536 + ·) = xs := by
  unfold chunkVals
  rw [List.filter_eq_self.mpr (by intro x hx; simp [h x hx]), List.map_map]
  refine (List.map_congr_left (g := id) (fun x hx => ?_)).trans (List.map_id _)
  have := h x hx
  simp only [Function.comp, id]
  omega

/-- a big slice is stored as a bitmap -/
theorem Stored.bitmap {xs : List Nat} {i : Nat} {s : SSeq} (hs : Stored dbg xs 31 m s) (hv : Valid xs)
    (h : ∀ x ∈ xs, x / 65536 = i) (h1 : 32768 ≤ xs.length) (h2 : xs.length < 65536) :
    SeqAt 31 m s [⟨i, .dense (chunkVals xs i)⟩] := by
  have := hs.repr hv
  rw [chunksOf_one hv h] at this
  unfold bodyOf at this
  rwa [chunkVals_length, sliceCard_one h, if_neg (by omega), if_neg (by omega)] at this

/-- a small slice is stored as blocks -/
theorem Stored.blocks {xs : List Nat} {i : Nat} {s : SSeq} (hs : Stored dbg xs 31 m s) (hv : Valid xs)
    (h : ∀ x ∈ xs, x / 65536 = i) (h1 : xs.length ≤ 2730) :
    SeqAt 31 m s [⟨i, .sparse (blocksTo (chunkVals xs i) 256)⟩] := by
  have := hs.repr hv
  rw [chunksOf_one hv h] at this
  have hc := sparseCost_le hv.2.1 i
  rw [sliceCard_one h] at hc
  unfold bodyOf at this
  rwa [chunkVals_length, sliceCard_one h, if_pos (by omega), sparseCost_eq, if_neg (by omega)] at this

/-- A call of which the first operand is one slice with at least 32768 and not all values, and the
second is the same slice with at most 2730 values. -/
structure BigSmall (dbg : Bool) (m : Mem) (i : Nat) (xs ys : List Nat) (l r : SSeq) : Prop where
  valid : Valid xs ∧ Valid ys
  stored : Stored dbg xs 31 m l ∧ Stored dbg ys 31 m r
  slice : (∀ x ∈ xs, x / 65536 = i) ∧ ∀ y ∈ ys, y / 65536 = i
  big : 32768 ≤ xs.length ∧ xs.length < 65536
  small : ys.length ≤ 2730

/-- The phases of a call. -/
theorem BigSmall.phases {i : Nat} {xs ys : List Nat} {l r : SSeq} (h : BigSmall dbg₁ m i xs ys l r) :
    ∃ n, (∀ buf, pairwise_union_prog dbg m l r buf 0
        = ds_union_chunk_prog dbg m l.data r.data n (i * 65536) buf 0) ∧
      (∀ tab buf, pairwise_intersection_prog dbg tab m l r buf 0
        = ds_intersect_chunk_prog dbg m l.data r.data n (i * 65536) buf 0) ∧
      (∀ z, z = List.replicate 1024 0 → ∃ x', uncompress_sparse_chunk dbg m r.data n z 0 = .ok x' ∧
        x'.length = 1024 ∧
        BufIs x' (fun v => decide (v ∈ chunkVals ys i))) ∧
      BitsAt (memWords m l.data) 1024 (fun v => decide (v ∈ chunkVals xs i)) ∧
      i * 65536 + 65536 ≤ 4294967296 := by
  have sl := h.stored.1.bitmap h.valid.1 h.slice.1 h.big.1 h.big.2
  have sr := h.stored.2.blocks h.valid.2 h.slice.2 h.small
  have wr := (sr.wf.head.2 : Body.WF (.sparse _))
  have hi := sl.wf.head.1
  simp only at hi
  refine ⟨_, fun buf => union_form sl sr buf, fun tab buf => intersection_form sl sr buf, ?_,
    sl.at_.2.1, by omega⟩
  rintro z rfl
  have hz : BufIs (List.replicate 1024 0) (fun _ => false) :=
    bufIs_replicate (by omega) (fun j _ _ => by simp)
  obtain ⟨x', e1, l1, b1⟩ := uncompress_sparse_chunk_spec (dbg := dbg)
    (out := List.replicate 1024 0) (p := 0) wr.1 wr.2 sr.at_.2.1 hz
    (by rw [List.length_replicate]; omega) (fun _ _ _ => rfl)
  rw [List.length_replicate] at l1
  refine ⟨x', e1, l1, ?_⟩
  rw [blkElems_blocksTo (chunkVals_sorted h.valid.2.2.1 i) chunkVals_lt] at b1
  refine b1.congr (fun v _ => ?_)
  simp

theorem zeros_bits : BitsAt (vecWords (List.replicate 1024 0)) 1024 (fun v => decide (v ∈ ([] : List Nat))) := by
  have hz : BufIs (List.replicate 1024 0) (fun v => decide (v ∈ ([] : List Nat))) :=
    bufIs_replicate (by omega) (fun j _ _ => by simp)
  exact hz.bitsAt (by rw [List.length_replicate]; omega)

/-- Two calls of three phases, the first phase of the second call before the last one of the first. -/
theorem interleave_three {f1 f2 g1 g2 : σ → Res σ} {f3 : σ → Res α} {g3 : σ → Res β}
    {s s1 s2 s3 s4 : σ} {a : α} {b : β} (h1 : f1 s = .ok s1) (h2 : f2 s1 = .ok s2)
    (h3 : g1 s2 = .ok s3) (h4 : f3 s3 = .ok a) (h5 : g2 s3 = .ok s4) (h6 : g3 s4 = .ok b) :
    interleave [true, true, false, true, false, false]
      (do Prog.write f1; Prog.write f2; Prog.read f3) (do Prog.write g1; Prog.write g2; Prog.read g3)
      s = .ok (.ret a, .ret b, s4) := by
  simp only [bind, Prog.bind, Prog.write, Prog.read, interleave, Prog.step, h1, h2, h3, h4, h5, h6,
    Functor.map, Except.map]

/-- C34: two unions at the same time.  The second call clears the shared scratch buffer after the
first one has filled it and before it reads it; the first call then returns its first operand alone,
whatever the second operand is.  The second call returns its union. -/
theorem C34_union_corrupted {i j : Nat} {xs ys xs' ys' Z' out out' : List Nat} {l r l' r' : SSeq}
    (h : BigSmall dbg₁ m i xs ys l r) (h' : BigSmall dbg₂ m j xs' ys' l' r')
    (hZ' : Enumerates Z' (fun v => v ∈ xs' ∨ v ∈ ys')) (s : UScratch) (hs : s.Ok)
    (hcap : xs.length ≤ out.length) (hcap' : Z'.length ≤ out'.length) :
    ∃ o o' t, interleave [true, true, false, true, false, false]
        (pairwise_union_prog dbg m l r out 0) (pairwise_union_prog dbg m l' r' out' 0) s
          = .ok (.ret (xs.length, o), .ret (Z'.length, o'), t) ∧
      Wrote out 0 xs 0 o ∧ Wrote out' 0 Z' 0 o' := by
  obtain ⟨n, p1, -, p2, p3, p4⟩ := h.phases (dbg := dbg)
  obtain ⟨n', q1, -, q2, q3, q4⟩ := h'.phases (dbg := dbg)
  rw [p1, q1]
  have hx := hs.2
  obtain ⟨x1, e1, l1, -⟩ := p2 (List.replicate s.x.length 0) (by rw [hx])
  obtain ⟨x2, e2, l2, b2⟩ := q2 (List.replicate x1.length 0) (by rw [l1])
  have hv := chunkVals_sorted h.valid.1.2.1 i
  have hv' := chunkVals_sorted h'.valid.1.2.1 j
  have hw' := chunkVals_sorted h'.valid.2.2.1 j
  obtain ⟨o, e3, w3⟩ := or_bitmaps_spec (A := chunkVals xs i) (B := []) p3 zeros_bits
    (fun _ _ => rfl) hv List.Pairwise.nil chunkVals_lt (by simp) (base := i * 65536) (out := 0)
    (buf := out) p4 (by omega) (by
      rw [uni_nil, chunkVals_length, sliceCard_one h.slice.1]; omega)
  rw [uni_nil, chunkVals_elems h.slice.1, chunkVals_length, sliceCard_one h.slice.1] at *
  have hu : (uni (chunkVals xs' j) (chunkVals ys' j)).map (j * 65536 + ·) = Z' := by
    rw [← uni_map_add _ hv' hw', chunkVals_elems h'.slice.1, chunkVals_elems h'.slice.2]
    exact (enumerates_uni h'.valid.1 h'.valid.2).unique hZ'
  have hul : (uni (chunkVals xs' j) (chunkVals ys' j)).length = Z'.length := by
    rw [← hu, List.length_map]
  obtain ⟨o', e4, w4⟩ := or_bitmaps_spec (A := chunkVals xs' j) (B := chunkVals ys' j) q3
    (b2.bitsAt (n := 1024) (by omega)) (fun _ _ => rfl) hv' hw' chunkVals_lt chunkVals_lt
    (base := j * 65536) (out := 0) (buf := out') q4 (by omega) (by rw [hul]; omega)
  rw [hu] at w4
  rw [hul] at e4
  refine ⟨o, o', ⟨s.x4, x2⟩, ?_, w3, w4⟩
  refine interleave_three (s1 := ⟨s.x4, List.replicate s.x.length 0⟩) (s2 := ⟨s.x4, x1⟩)
    (s3 := ⟨s.x4, List.replicate x1.length 0⟩) rfl (by simp only [e1]; rfl) rfl ?_
    (by simp only [e2]; rfl) e4
  rw [l1]
  exact e3

/-- C34: the first call of `C34_union_corrupted` is wrong: its result does not have as many elements
as the union of its operands. -/
theorem C34_union_wrong {i j : Nat} {xs ys Z xs' ys' Z' out out' : List Nat} {l r l' r' : SSeq}
    (h : BigSmall dbg₁ m i xs ys l r) (h' : BigSmall dbg₂ m j xs' ys' l' r')
    (hZ : Enumerates Z (fun v => v ∈ xs ∨ v ∈ ys)) (hnew : ∃ y ∈ ys, y ∉ xs)
    (hZ' : Enumerates Z' (fun v => v ∈ xs' ∨ v ∈ ys')) (s : UScratch) (hs : s.Ok)
    (hcap : xs.length ≤ out.length) (hcap' : Z'.length ≤ out'.length) :
    ∃ sched a b t, interleave sched
        (pairwise_union_prog dbg m l r out 0) (pairwise_union_prog dbg m l' r' out' 0) s
          = .ok (.ret a, .ret b, t) ∧ a.1 < Z.length := by
  obtain ⟨o, o', t, e, -, -⟩ := C34_union_corrupted (dbg := dbg) h h' hZ' s hs hcap hcap'
  refine ⟨_, _, _, _, e, ?_⟩
  obtain ⟨y, hy, hn⟩ := hnew
  have hnd : (y :: xs).Nodup := List.nodup_cons.mpr ⟨hn, h.valid.1.2.1.imp (fun h => by omega)⟩
  have hsub : (y :: xs) ⊆ Z := by
    intro v hv
    rcases List.mem_cons.mp hv with rfl | hv
    · exact (hZ.2 v).mpr (.inr hy)
    · exact (hZ.2 v).mpr (.inl hv)
  have := hnd.length_le_of_subset hsub
  rw [List.length_cons] at this
  exact this

/-- C34: two intersections at the same time.  Under the same schedule the first call returns nothing,
whatever its operands have in common.  The second call returns its intersection. -/
theorem C34_intersection_corrupted {tab : Nat → List Nat} {i j : Nat}
    {xs ys xs' ys' Z' out out' : List Nat} {l r l' r' : SSeq}
    (h : BigSmall dbg₁ m i xs ys l r) (h' : BigSmall dbg₂ m j xs' ys' l' r')
    (hZ' : Enumerates Z' (fun v => v ∈ xs' ∧ v ∈ ys')) (x : List Nat) (hx : x.length = 1024)
    (hcap' : Z'.length ≤ out'.length) :
    ∃ o o' t, interleave [true, true, false, true, false, false]
        (pairwise_intersection_prog dbg tab m l r out 0)
        (pairwise_intersection_prog dbg tab m l' r' out' 0) x
          = .ok (.ret (0, o), .ret (Z'.length, o'), t) ∧
      Wrote out' 0 Z' 0 o' := by
  obtain ⟨n, -, p1, p2, p3, p4⟩ := h.phases (dbg := dbg)
  obtain ⟨n', -, q1, q2, q3, q4⟩ := h'.phases (dbg := dbg)
  rw [p1, q1]
  obtain ⟨x1, e1, l1, -⟩ := p2 (List.replicate x.length 0) (by rw [hx])
  obtain ⟨x2, e2, l2, b2⟩ := q2 (List.replicate x1.length 0) (by rw [l1])
  have hv := chunkVals_sorted h.valid.1.2.1 i
  have hv' := chunkVals_sorted h'.valid.1.2.1 j
  have z : BitsAt (vecWords (List.replicate x1.length 0)) 1024
      (fun v => decide (v ∈ ([] : List Nat))) := by rw [l1]; exact zeros_bits
  obtain ⟨o, e3, -⟩ := and_bitmaps_spec (A := chunkVals xs i) (B := []) p3 z
    hv chunkVals_lt (base := i * 65536) (out := 0) (buf := out) p4 (by omega)
    (by rw [inter_nil]; exact Nat.zero_le _)
  rw [inter_nil] at e3
  have hu : (inter (chunkVals xs' j) (chunkVals ys' j)).map (j * 65536 + ·) = Z' := by
    rw [← inter_map_add, chunkVals_elems h'.slice.1, chunkVals_elems h'.slice.2]
    exact (enumerates_inter h'.valid.1).unique hZ'
  have hul : (inter (chunkVals xs' j) (chunkVals ys' j)).length = Z'.length := by
    rw [← hu, List.length_map]
  obtain ⟨o', e4, w4⟩ := and_bitmaps_spec (A := chunkVals xs' j) (B := chunkVals ys' j) q3
    (b2.bitsAt (n := 1024) (by omega)) hv' chunkVals_lt
    (base := j * 65536) (out := 0) (buf := out') q4 (by omega) (by rw [hul]; omega)
  rw [hu] at w4
  rw [hul] at e4
  exact ⟨o, o', x2, interleave_three rfl e1 rfl e3 e2 e4, w4⟩

/-- C34: the first call of `C34_intersection_corrupted` is wrong whenever its operands meet. -/
theorem C34_intersection_wrong {tab : Nat → List Nat} {i j : Nat}
    {xs ys Z xs' ys' Z' out out' : List Nat} {l r l' r' : SSeq}
    (h : BigSmall dbg₁ m i xs ys l r) (h' : BigSmall dbg₂ m j xs' ys' l' r')
    (hZ : Enumerates Z (fun v => v ∈ xs ∧ v ∈ ys)) (hcom : ∃ y ∈ ys, y ∈ xs)
    (hZ' : Enumerates Z' (fun v => v ∈ xs' ∧ v ∈ ys')) (x : List Nat) (hx : x.length = 1024)
    (hcap' : Z'.length ≤ out'.length) :
    ∃ sched a b t, interleave sched (pairwise_intersection_prog dbg tab m l r out 0)
        (pairwise_intersection_prog dbg tab m l' r' out' 0) x
          = .ok (.ret a, .ret b, t) ∧ a.1 < Z.length := by
  obtain ⟨o, o', t, e, -⟩ := C34_intersection_corrupted (dbg := dbg) (tab := tab) (out := out) h h'
    hZ' x hx hcap'
  obtain ⟨y, hy, hn⟩ := hcom
  exact ⟨_, _, _, _, e, List.length_pos_of_mem ((hZ.2 y).mpr ⟨hn, hy⟩)⟩

/-! ## A case -/

theorem range_valid {n : Nat} (h0 : 0 < n) (h : n < 65536) : Valid (List.range n) := by
  refine ⟨?_, range_sorted _, fun x hx => ?_⟩
  · intro e
    have := congrArg List.length e
    rw [List.length_range, List.length_nil] at this
    omega
  · have := List.mem_range.mp hx
    omega

theorem bigSmall_range {n a b : Nat} {l r : SSeq} (h1 : 32768 ≤ n) (h2 : n < 65536) (h3 : a < b)
    (h4 : b < 65536) (hl : Stored dbg (List.range n) 31 m l) (hr : Stored dbg [a, b] 31 m r) :
    BigSmall dbg m 0 (List.range n) [a, b] l r := by
  refine ⟨⟨range_valid (by omega) h2, by simp, by simp [h3], ?_⟩, ⟨hl, hr⟩, ⟨?_, ?_⟩,
    ⟨by rw [List.length_range]; exact h1, by rw [List.length_range]; exact h2⟩, by simp⟩
  · intro x hx
    simp only [List.mem_cons, List.not_mem_nil, or_false] at hx
    omega
  · intro x hx
    have := List.mem_range.mp hx
    omega
  · intro x hx
    simp only [List.mem_cons, List.not_mem_nil, or_false] at hx
    omega

theorem four_sequences {n n' a b a' b' : Nat} (h1 : 32768 ≤ n) (h2 : n < 65536) (h3 : a < b)
    (h4 : b < 65536) (h1' : 32768 ≤ n') (h2' : n' < 65536) (h3' : a' < b') (h4' : b' < 65536) :
    ∃ m l r l' r', BigSmall true m 0 (List.range n) [a, b] l r ∧
      BigSmall true m 0 (List.range n') [a', b'] l' r' := by
  have v : ∀ a b, a < b → b < 65536 → Valid [a, b] := by
    intro a b h1 h2
    refine ⟨by simp, by simp [h1], fun x hx => ?_⟩
    simp only [List.mem_cons, List.not_mem_nil, or_false] at hx
    omega
  obtain ⟨m, ps, hps, hst⟩ := stored_many true 31
    [List.range n, [a, b], List.range n', [a', b']] (by
      intro xs hx
      simp only [List.mem_cons, List.not_mem_nil, or_false] at hx
      rcases hx with rfl | rfl | rfl | rfl
      · exact range_valid (by omega) h2
      · exact v _ _ h3 h4
      · exact range_valid (by omega) h2'
      · exact v _ _ h3' h4')
  have get : ∀ xs ∈ ps.map Prod.fst, ∃ s, Stored true xs 31 m s := by
    intro xs hx
    obtain ⟨p, hp, rfl⟩ := List.mem_map.mp hx
    exact ⟨p.2, (hst p hp).2⟩
  rw [hps] at get
  obtain ⟨l, hl⟩ := get (List.range n) (by simp)
  obtain ⟨r, hr⟩ := get [a, b] (by simp)
  obtain ⟨l', hl'⟩ := get (List.range n') (by simp)
  obtain ⟨r', hr'⟩ := get [a', b'] (by simp)
  exact ⟨m, l, r, l', r', bigSmall_range h1 h2 h3 h4 hl hr, bigSmall_range h1' h2' h3' h4' hl' hr'⟩

/-- Two calls on four different sequences: the union of `0..39999` with `7, 50000` at the same time as
the union of `0..32999` with `9, 60000` can lose an element. -/
example : ∃ m l r l' r' Z sched a b t, BigSmall true m 0 (List.range 40000) [7, 50000] l r ∧
    BigSmall true m 0 (List.range 33000) [9, 60000] l' r' ∧
    Enumerates Z (fun v => v ∈ List.range 40000 ∨ v ∈ [7, 50000]) ∧
    interleave sched (pairwise_union_prog false m l r (List.replicate 50000 0) 0)
        (pairwise_union_prog false m l' r' (List.replicate 50000 0) 0) UScratch.init
      = .ok (.ret a, .ret b, t) ∧ a.1 < Z.length := by
  obtain ⟨m, l, r, l', r', h, h'⟩ := four_sequences (n := 40000) (n' := 33000) (a := 7) (b := 50000)
    (a' := 9) (b' := 60000) (by omega) (by omega) (by omega) (by omega) (by omega) (by omega)
    (by omega) (by omega)
  have hlen := uni_length_le (List.range 33000) [9, 60000]
  rw [List.length_range] at hlen
  obtain ⟨sched, a, b, t, e, lt⟩ := C34_union_wrong (dbg := false)
    (out := List.replicate 50000 0) (out' := List.replicate 50000 0) h h'
    (enumerates_uni h.valid.1 h.valid.2)
    ⟨50000, List.mem_cons_of_mem _ (List.mem_cons_self ..), fun hm => by
      have := List.mem_range.mp hm
      omega⟩
    (enumerates_uni h'.valid.1 h'.valid.2) UScratch.init UScratch.init_ok
    (by rw [List.length_range, List.length_replicate]; omega)
    (by
      rw [List.length_replicate]
      simp only [List.length_cons, List.length_nil] at hlen
      omega)
  exact ⟨m, l, r, l', r', _, sched, a, b, t, h, h', enumerates_uni h.valid.1 h.valid.2, e, lt⟩

end Sliced
