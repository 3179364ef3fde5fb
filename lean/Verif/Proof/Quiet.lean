import Verif.Proof.Concurrent
import Verif.Proof.Union
import Verif.Proof.Intersection
/-!
# Which calls touch the static scratch objects

A call whose program has no step on the shared state is called quiet.  It is quiet exactly if it never
meets a slice (or, for the union, a block) that one sequence stores as a bitmap and the other one not.
-/
namespace Sliced

variable {σ α β : Type}

/-- finished or failed -/
def Prog.NoAct : Prog σ α → Prop
  | .ret _ => True
  | .fail _ => True
  | .act .. => False

theorem noAct_lift (r : Res α) : (Prog.lift r : Prog σ α).NoAct := by cases r <;> trivial

theorem noAct_bind {A : Prog σ α} {g : α → Prog σ β} (hA : A.NoAct)
    (hg : ∀ a, A = .ret a → (g a).NoAct) : (A >>= g).NoAct := by
  cases A with
  | ret a => exact hg a rfl
  | fail e => trivial
  | act => cases hA

theorem noAct_lift_bind {r : Res α} {g : α → Prog σ β} (hg : ∀ a, r = .ok a → (g a).NoAct) :
    ((Prog.lift r : Prog σ α) >>= g).NoAct := by
  cases r with
  | ok a => exact hg a rfl
  | error e => trivial

theorem ret_of_run {A : Prog σ α} {s : σ} {p : α × σ} (h : A.NoAct) (hr : A.run s = .ok p) :
    A = .ret p.1 := by
  cases A with
  | ret a => cases hr; rfl
  | fail e => cases hr
  | act => cases h

theorem bind_ret_inv {A : Prog σ α} {g : α → Prog σ β} {b : β} (h : A >>= g = .ret b) :
    ∃ a, A = .ret a ∧ g a = .ret b := by
  cases A with
  | ret a => exact ⟨a, rfl, h⟩
  | fail e => cases h
  | act => cases h

theorem lift_ret_inv {r : Res α} {a : α} (h : (Prog.lift r : Prog σ α) = .ret a) : r = .ok a := by
  cases r with
  | ok b => cases h; rfl
  | error e => cases h

theorem lift_bind_ret_inv {r : Res α} {g : α → Prog σ β} {b : β}
    (h : (Prog.lift r : Prog σ α) >>= g = .ret b) : ∃ a, r = .ok a ∧ g a = .ret b := by
  obtain ⟨a, e, h⟩ := bind_ret_inv h
  exact ⟨a, lift_ret_inv e, h⟩

/-! ## Intersection -/

/-- Two slices that `pairwise_intersection` handles without scratch space. -/
def Body.QuietI : Body → Body → Prop
  | .dense _, .sparse _ => False
  | .sparse _, .dense _ => False
  | _, _ => True

def ChunksQuietI (L R : List Chk) : Prop :=
  ∀ a ∈ L, ∀ b ∈ R, a.id = b.id → a.body.QuietI b.body

variable {dbg : Bool} {tab : Nat → List Nat} {m : Mem} {pad : Nat}

attribute [local irreducible] decode_full_chunk

theorem ds_intersect_chunk_prog_act {l r blocks base out : Nat} {buf : List Nat} :
    ¬ (ds_intersect_chunk_prog dbg m l r blocks base buf out).NoAct := fun h => h

theorem intersect_chunks_quiet {il ir : It} {a b : Chk} {L R : List Chk} {base out : Nat}
    {buf : List Nat} (hl : ItOn pad m il (a :: L)) (hr : ItOn pad m ir (b :: R)) :
    (a.body.QuietI b.body → (intersect_chunks_prog dbg tab m il ir base buf out).NoAct) ∧
    ((intersect_chunks_prog dbg tab m il ir base buf out).NoAct → a.body.QuietI b.body) := by
  unfold intersect_chunks_prog
  cases hA : a.body with
  | full =>
    rw [hl.type_full hA, lift_ok_bind]
    cases hB : b.body with
    | full =>
      rw [hr.type_full hB, lift_ok_bind]
      simp only [chunk_pair, type_sparse, type_dense, type_full, Nat.reduceMul, Nat.reduceAdd,
        Nat.reduceEqDiff, if_true, if_false]
      exact ⟨fun _ => noAct_lift _, fun _ => trivial⟩
    | dense vs =>
      rw [hr.type_dense hB, lift_ok_bind]
      simp only [chunk_pair, type_sparse, type_dense, type_full, Nat.reduceMul, Nat.reduceAdd,
        Nat.reduceEqDiff, if_true, if_false]
      exact ⟨fun _ => noAct_lift _, fun _ => trivial⟩
    | sparse bs =>
      rw [hr.type_sparse hB, lift_ok_bind]
      exact ⟨fun _ => noAct_lift_bind (fun _ _ => noAct_lift _), fun _ => trivial⟩
  | dense vs =>
    rw [hl.type_dense hA, lift_ok_bind]
    cases hB : b.body with
    | full =>
      rw [hr.type_full hB, lift_ok_bind]
      simp only [chunk_pair, type_sparse, type_dense, type_full, Nat.reduceMul, Nat.reduceAdd,
        Nat.reduceEqDiff, if_true, if_false]
      exact ⟨fun _ => noAct_lift _, fun _ => trivial⟩
    | dense vs =>
      rw [hr.type_dense hB, lift_ok_bind]
      simp only [chunk_pair, type_sparse, type_dense, type_full, Nat.reduceMul, Nat.reduceAdd,
        Nat.reduceEqDiff, if_true, if_false]
      exact ⟨fun _ => noAct_lift _, fun _ => trivial⟩
    | sparse bs =>
      rw [hr.type_sparse hB, lift_ok_bind]
      refine ⟨fun h => h.elim, fun h => ?_⟩
      simp only [chunk_pair, type_sparse, type_dense, type_full, Nat.reduceMul, Nat.reduceAdd,
        Nat.reduceEqDiff, if_true, if_false, hr.blocks_sparse hB, lift_ok_bind] at h
      exact h
  | sparse bs =>
    rw [hl.type_sparse hA, lift_ok_bind]
    cases hB : b.body with
    | full =>
      rw [hr.type_full hB, lift_ok_bind]
      exact ⟨fun _ => noAct_lift_bind (fun _ _ => noAct_lift _), fun _ => trivial⟩
    | dense vs =>
      rw [hr.type_dense hB, lift_ok_bind]
      refine ⟨fun h => h.elim, fun h => ?_⟩
      simp only [chunk_pair, type_sparse, type_dense, type_full, Nat.reduceMul, Nat.reduceAdd,
        Nat.reduceEqDiff, if_true, if_false, hl.blocks_sparse hA, lift_ok_bind] at h
      exact h
    | sparse bs =>
      rw [hr.type_sparse hB, lift_ok_bind]
      refine ⟨fun _ => noAct_lift_bind (fun _ _ => noAct_lift_bind (fun _ _ => ?_)), fun _ => trivial⟩
      split <;> exact noAct_lift _

theorem fromId_mem {k : Nat} {L : List Chk} {c : Chk} (hc : c ∈ fromId k L) : c ∈ L :=
  (fromId_sublist k L).subset hc

theorem mem_fromId {k : Nat} {L : List Chk} {c : Chk} (hw : ChunksWF L) (hc : c ∈ L) (hk : k ≤ c.id) :
    c ∈ fromId k L := by
  induction L with
  | nil => cases hc
  | cons a L ih =>
    by_cases h : a.id < k
    · have e : fromId k (a :: L) = fromId k L := by simp [fromId, h]
      rw [e]
      rcases List.mem_cons.mp hc with rfl | hc
      · omega
      · exact ih hw.tail hc
    · have e : fromId k (a :: L) = a :: L := by simp [fromId, h]
      rw [e]
      exact hc

theorem pairwise_intersection_loop_quiet (f : Nat) {il ir : It} {L R : List Chk} {out : Nat}
    {buf : List Nat} (hl : ItOn pad m il L) (hr : ItOn pad m ir R) (hq : ChunksQuietI L R) :
    (pairwise_intersection_loop_prog dbg tab m f il ir buf out).NoAct := by
  induction f generalizing il ir L R out buf with
  | zero => exact noAct_lift _
  | succ f ih =>
    unfold pairwise_intersection_loop_prog
    cases L with
    | nil => rw [hl.has_next_nil]; trivial
    | cons a L =>
      cases R with
      | nil => rw [hr.has_next_nil, Bool.and_false]; trivial
      | cons b R =>
        have ia := hl.wf.head.1
        have ib := hr.wf.head.1
        rw [hl.has_next, hr.has_next, Bool.and_self, if_pos rfl, hl.id, lift_ok_bind, hr.id, lift_ok_bind]
        simp only [u16_lt (show a.id < 65536 by omega), u16_lt (show b.id < 65536 by omega)]
        by_cases hab : a.id = b.id
        · rw [if_pos hab]
          refine noAct_bind ((intersect_chunks_quiet hl hr).1
            (hq a List.mem_cons_self b List.mem_cons_self hab)) (fun p _ => ?_)
          obtain ⟨il', n1, hl', -⟩ := hl.next
          obtain ⟨ir', n2, hr', -⟩ := hr.next
          rw [n1]
          simp only [lift_ok_bind]
          rw [n2]
          simp only [lift_ok_bind]
          exact ih hl' hr' (fun c hc d hd => hq c (List.mem_cons_of_mem _ hc) d (List.mem_cons_of_mem _ hd))
        · rw [if_neg hab]
          by_cases hlt : a.id < b.id
          · rw [if_pos hlt]
            obtain ⟨it', e, hit, -⟩ := It.advance_spec (lb := b.id) hl
            rw [e, lift_ok_bind]
            exact ih hit hr (fun c hc d hd => hq c (fromId_mem hc) d hd)
          · rw [if_neg hlt]
            obtain ⟨it', e, hit, -⟩ := It.advance_spec (lb := a.id) hr
            rw [e, lift_ok_bind]
            exact ih hl hit (fun c hc d hd => hq c hc d (fromId_mem hd))

theorem pairwise_intersection_loop_loud (f : Nat) {il ir : It} {L R : List Chk} {out : Nat}
    {buf : List Nat} {v : Nat × List Nat} (hl : ItOn pad m il L) (hr : ItOn pad m ir R)
    (h : pairwise_intersection_loop_prog dbg tab m f il ir buf out = .ret v) : ChunksQuietI L R := by
  induction f generalizing il ir L R out buf with
  | zero => cases h
  | succ f ih =>
    unfold pairwise_intersection_loop_prog at h
    cases L with
    | nil => intro a ha; cases ha
    | cons a L =>
      cases R with
      | nil => intro a _ b hb; cases hb
      | cons b R =>
        have ia := hl.wf.head.1
        have ib := hr.wf.head.1
        rw [hl.has_next, hr.has_next, Bool.and_self, if_pos rfl, hl.id, lift_ok_bind, hr.id,
          lift_ok_bind] at h
        simp only [u16_lt (show a.id < 65536 by omega), u16_lt (show b.id < 65536 by omega)] at h
        by_cases hab : a.id = b.id
        · rw [if_pos hab] at h
          obtain ⟨p, e, h⟩ := bind_ret_inv h
          have hq := (intersect_chunks_quiet (dbg := dbg) (tab := tab) hl hr).2 (by rw [e]; trivial)
          obtain ⟨il', n1, hl', -⟩ := hl.next
          obtain ⟨ir', n2, hr', -⟩ := hr.next
          rw [n1] at h
          simp only [lift_ok_bind] at h
          rw [n2] at h
          simp only [lift_ok_bind] at h
          have hi := ih hl' hr' h
          intro c hc d hd hcd
          have ga := hl.wf.head_lt
          have gb := hr.wf.head_lt
          rcases List.mem_cons.mp hc with rfl | hc
          · rcases List.mem_cons.mp hd with rfl | hd
            · exact hq
            · have := gb d hd; omega
          · rcases List.mem_cons.mp hd with rfl | hd
            · have := ga c hc; omega
            · exact hi c hc d hd hcd
        · rw [if_neg hab] at h
          by_cases hlt : a.id < b.id
          · rw [if_pos hlt] at h
            obtain ⟨it', e, hit, -⟩ := It.advance_spec (lb := b.id) hl
            rw [e, lift_ok_bind] at h
            have hi := ih hit hr h
            intro c hc d hd hcd
            have := hr.wf.ge_head d hd
            exact hi c (mem_fromId hl.wf hc (by omega)) d hd hcd
          · rw [if_neg hlt] at h
            obtain ⟨it', e, hit, -⟩ := It.advance_spec (lb := a.id) hr
            rw [e, lift_ok_bind] at h
            have hi := ih hl hit h
            intro c hc d hd hcd
            have := hl.wf.ge_head c hc
            exact hi c hc d (mem_fromId hr.wf hd (by omega)) hcd

theorem pairwise_intersection_quiet {l r : SSeq} {L R : List Chk} {buf : List Nat} {out : Nat}
    (hl : SeqAt pad m l L) (hr : SeqAt pad m r R) (hq : ChunksQuietI L R) :
    (pairwise_intersection_prog dbg tab m l r buf out).NoAct :=
  noAct_bind (pairwise_intersection_loop_quiet _ hl.begin hr.begin hq) (fun _ _ => trivial)

theorem pairwise_intersection_loud {l r : SSeq} {L R : List Chk} {buf : List Nat} {out : Nat}
    {v : Nat × List Nat} (hl : SeqAt pad m l L) (hr : SeqAt pad m r R)
    (h : pairwise_intersection_prog dbg tab m l r buf out = .ret v) : ChunksQuietI L R := by
  obtain ⟨p, e, -⟩ := bind_ret_inv h
  exact pairwise_intersection_loop_loud _ hl.begin hr.begin e

/-! ## Union -/

/-- Two blocks that `pairwise_union` handles without scratch space. -/
def Blk.QuietU (x y : Blk) : Prop := x.vals.length < 31 ↔ y.vals.length < 31

def BlocksQuietU (L R : List Blk) : Prop := ∀ x ∈ L, ∀ y ∈ R, x.id = y.id → x.QuietU y

/-- Two slices that `pairwise_union` handles without scratch space. -/
def Body.QuietU : Body → Body → Prop
  | .dense _, .sparse _ => False
  | .sparse _, .dense _ => False
  | .sparse bs, .sparse cs => BlocksQuietU bs cs
  | _, _ => True

def ChunksQuietU (L R : List Chk) : Prop :=
  ∀ a ∈ L, ∀ b ∈ R, a.id = b.id → a.body.QuietU b.body

/-- the headers of blocks -/
def HeadersAt (m : Mem) : Nat → List Blk → Prop
  | _, [] => True
  | p, b :: bs => rd8 m p = .ok b.id ∧ rd8 m (p + 1) = .ok (b.vals.length - 1) ∧ HeadersAt m (p + 2) bs

theorem BlocksAt.headers {p d : Nat} {bs : List Blk} (h : BlocksAt pad m p d bs) : HeadersAt m p bs := by
  induction bs generalizing p d with
  | nil => trivial
  | cons b bs ih => exact ⟨h.1, h.2.1, ih h.2.2.2⟩

theorem union_blocks_quiet {data_l data_r cl cr base out : Nat} {buf : List Nat} :
    (union_blocks_prog dbg m data_l data_r cl cr base buf out).NoAct ↔ (cl < 31 ↔ cr < 31) := by
  unfold union_blocks_prog block_type
  by_cases h1 : cl < 31
  · by_cases h2 : cr < 31
    · simp only [if_pos h1, if_pos h2]
      exact ⟨fun _ => by simp [h1, h2], fun _ => noAct_lift _⟩
    · simp only [if_pos h1, if_neg h2]
      exact ⟨fun h => h.elim, fun h => absurd (h.mp h1) h2⟩
  · by_cases h2 : cr < 31
    · simp only [if_neg h1, if_pos h2]
      exact ⟨fun h => h.elim, fun h => absurd (h.mpr h2) h1⟩
    · simp only [if_neg h1, if_neg h2]
      exact ⟨fun _ => by simp [h1, h2], fun _ => noAct_lift _⟩

theorem decode_macro_ptr {base ptr data out : Nat} {buf : List Nat} {q : Nat × List Nat × Nat × Nat}
    (h : decode_macro m base ptr data buf out = .ok q) : q.2.2.2 = ptr + 2 := by
  unfold decode_macro at h
  cases h1 : rd8 m ptr with
  | error e => rw [h1] at h; cases h
  | ok id =>
    rw [h1, ok_bind] at h
    cases h2 : rd8 m (ptr + 1) with
    | error e => rw [h2] at h; cases h
    | ok c =>
      rw [h2, ok_bind] at h
      simp only at h
      cases h3 : decode_block m data (block_type (c + 1)) (c + 1) (u32 (base + id * 256)) buf out with
      | error e => rw [h3] at h; cases h
      | ok p => rw [h3, ok_bind] at h; cases h; rfl

theorem ss_union_chunk_loop_quiet {end_l end_r base : Nat} (f : Nat) {s : UPos} {L R : List Blk}
    (hL : L ≠ []) (hR : R ≠ []) (wL : BlocksWF L) (wR : BlocksWF R)
    (al : HeadersAt m s.l L) (ar : HeadersAt m s.r R)
    (el : s.l + 2 * L.length = end_l) (er : s.r + 2 * R.length = end_r) :
    (BlocksQuietU L R → (ss_union_chunk_loop_prog dbg m end_l end_r base f s).NoAct) ∧
    (∀ v, ss_union_chunk_loop_prog dbg m end_l end_r base f s = .ret v → BlocksQuietU L R) := by
  induction f generalizing s L R with
  | zero => exact ⟨fun _ => noAct_lift _, fun v h => by cases h⟩
  | succ f ih =>
    obtain ⟨a, L, rfl⟩ := List.exists_cons_of_ne_nil hL
    obtain ⟨b, R, rfl⟩ := List.exists_cons_of_ne_nil hR
    simp only [List.length_cons] at el er
    have ga := wL.head_lt
    have gb := wR.head_lt
    unfold ss_union_chunk_loop_prog
    rw [al.1, lift_ok_bind, ar.1, lift_ok_bind]
    by_cases h1 : a.id < b.id
    · simp only [if_pos h1]
      have drop : BlocksQuietU L (b :: R) → BlocksQuietU (a :: L) (b :: R) := by
        intro h x hx y hy hxy
        rcases List.mem_cons.mp hx with rfl | hx
        · have := wR.ge_head y hy; omega
        · exact h x hx y hy hxy
      have main : ∀ q, decode_macro m base s.l s.data_l s.buf s.out = .ok q →
          let s' : UPos := { s with l := q.2.2.2, data_l := q.2.2.1, out := q.1, buf := q.2.1 }
          ((BlocksQuietU (a :: L) (b :: R) →
            (if s'.l = end_l then (.ret s' : Prog UScratch UPos)
              else ss_union_chunk_loop_prog dbg m end_l end_r base f s').NoAct) ∧
          (∀ v, (if s'.l = end_l then (.ret s' : Prog UScratch UPos)
              else ss_union_chunk_loop_prog dbg m end_l end_r base f s') = .ret v →
            BlocksQuietU (a :: L) (b :: R))) := by
        intro q hq
        have hp := decode_macro_ptr hq
        intro s'
        have hs' : s'.l = s.l + 2 := hp
        by_cases he : s'.l = end_l
        · simp only [if_pos he]
          have : L = [] := List.length_eq_zero_iff.mp (by omega)
          subst this
          exact ⟨fun _ => trivial, fun _ _ => drop (fun x hx => by cases hx)⟩
        · simp only [if_neg he]
          have hne : L ≠ [] := by
            rintro rfl
            simp only [List.length_nil] at el
            omega
          have hi := ih (s := s') (L := L) (R := b :: R) hne hR wL.tail wR (hs' ▸ al.2.2) ar
            (by rw [hs']; omega) (by rw [List.length_cons]; exact er)
          exact ⟨fun hq => hi.1 (fun x hx => hq x (List.mem_cons_of_mem _ hx)),
            fun v hv => drop (hi.2 v hv)⟩
      constructor
      · intro hq
        exact noAct_lift_bind (fun q e => (main q e).1 hq)
      · intro v hv
        obtain ⟨q, e, hv⟩ := lift_bind_ret_inv hv
        exact (main q e).2 v hv
    · simp only [if_neg h1]
      by_cases h2 : a.id > b.id
      · simp only [if_pos h2]
        have drop : BlocksQuietU (a :: L) R → BlocksQuietU (a :: L) (b :: R) := by
          intro h x hx y hy hxy
          rcases List.mem_cons.mp hy with rfl | hy
          · have := wL.ge_head x hx; omega
          · exact h x hx y hy hxy
        have main : ∀ q, decode_macro m base s.r s.data_r s.buf s.out = .ok q →
            let s' : UPos := { s with r := q.2.2.2, data_r := q.2.2.1, out := q.1, buf := q.2.1 }
            ((BlocksQuietU (a :: L) (b :: R) →
              (if s'.r = end_r then (.ret s' : Prog UScratch UPos)
                else ss_union_chunk_loop_prog dbg m end_l end_r base f s').NoAct) ∧
            (∀ v, (if s'.r = end_r then (.ret s' : Prog UScratch UPos)
                else ss_union_chunk_loop_prog dbg m end_l end_r base f s') = .ret v →
              BlocksQuietU (a :: L) (b :: R))) := by
          intro q hq
          have hp := decode_macro_ptr hq
          intro s'
          have hs' : s'.r = s.r + 2 := hp
          by_cases he : s'.r = end_r
          · simp only [if_pos he]
            have : R = [] := List.length_eq_zero_iff.mp (by omega)
            subst this
            exact ⟨fun _ => trivial, fun _ _ => drop (fun x _ y hy => by cases hy)⟩
          · simp only [if_neg he]
            have hne : R ≠ [] := by
              rintro rfl
              simp only [List.length_nil] at er
              omega
            have hi := ih (s := s') (L := a :: L) (R := R) hL hne wL wR.tail al (hs' ▸ ar.2.2)
              (by rw [List.length_cons]; exact el) (by rw [hs']; omega)
            exact ⟨fun hq => hi.1 (fun x hx y hy => hq x hx y (List.mem_cons_of_mem _ hy)),
              fun v hv => drop (hi.2 v hv)⟩
        constructor
        · intro hq
          exact noAct_lift_bind (fun q e => (main q e).1 hq)
        · intro v hv
          obtain ⟨q, e, hv⟩ := lift_bind_ret_inv hv
          exact (main q e).2 v hv
      · simp only [if_neg h2]
        have hab : a.id = b.id := by omega
        have ca := wL.head.card_pos
        have cb := wR.head.card_pos
        rw [al.2.1, lift_ok_bind, ar.2.1, lift_ok_bind]
        simp only [Nat.sub_add_cancel ca, Nat.sub_add_cancel cb]
        have split : BlocksQuietU (a :: L) (b :: R) ↔ a.QuietU b ∧ BlocksQuietU L R := by
          constructor
          · intro h
            exact ⟨h a List.mem_cons_self b List.mem_cons_self hab,
              fun x hx y hy => h x (List.mem_cons_of_mem _ hx) y (List.mem_cons_of_mem _ hy)⟩
          · rintro ⟨h, h'⟩ x hx y hy hxy
            rcases List.mem_cons.mp hx with rfl | hx
            · rcases List.mem_cons.mp hy with rfl | hy
              · exact h
              · have := gb y hy; omega
            · rcases List.mem_cons.mp hy with rfl | hy
              · have := ga x hx; omega
              · exact h' x hx y hy hxy
        have main : ∀ (n : Nat) (buf : List Nat),
            let s' : UPos := { l := s.l + 2, data_l := s.data_l + bytes_by_cardinality a.vals.length,
                               r := s.r + 2, data_r := s.data_r + bytes_by_cardinality b.vals.length,
                               out := s.out + n, buf := buf }
            ((BlocksQuietU L R →
              (if s'.l = end_l ∨ s'.r = end_r then (.ret s' : Prog UScratch UPos)
                else ss_union_chunk_loop_prog dbg m end_l end_r base f s').NoAct) ∧
            (∀ v, (if s'.l = end_l ∨ s'.r = end_r then (.ret s' : Prog UScratch UPos)
                else ss_union_chunk_loop_prog dbg m end_l end_r base f s') = .ret v →
              BlocksQuietU L R)) := by
          intro n buf s'
          by_cases he : s'.l = end_l ∨ s'.r = end_r
          · simp only [if_pos he]
            refine ⟨fun _ => trivial, fun _ _ x hx y hy => ?_⟩
            rcases he with he | he
            · have : L = [] := List.length_eq_zero_iff.mp (by
                have : s.l + 2 = end_l := he
                omega)
              subst this
              cases hx
            · have : R = [] := List.length_eq_zero_iff.mp (by
                have : s.r + 2 = end_r := he
                omega)
              subst this
              cases hy
          · simp only [if_neg he]
            have he1 : s.l + 2 ≠ end_l := fun h => he (Or.inl h)
            have he2 : s.r + 2 ≠ end_r := fun h => he (Or.inr h)
            have hne : L ≠ [] := by
              rintro rfl
              simp only [List.length_nil] at el
              omega
            have hne' : R ≠ [] := by
              rintro rfl
              simp only [List.length_nil] at er
              omega
            exact ih (s := s') (L := L) (R := R) hne hne' wL.tail wR.tail al.2.2 ar.2.2
              (show s.l + 2 + 2 * L.length = end_l by omega) (show s.r + 2 + 2 * R.length = end_r by omega)
        rw [split]
        constructor
        · rintro ⟨h, h'⟩
          exact noAct_bind (union_blocks_quiet.mpr h) (fun p _ => (main p.1 p.2).1 h')
        · intro v hv
          obtain ⟨p, e, hv⟩ := bind_ret_inv hv
          exact ⟨union_blocks_quiet.mp (by rw [e]; trivial), (main p.1 p.2).2 v hv⟩

theorem BlocksQuietU.symm {L R : List Blk} (h : BlocksQuietU L R) : BlocksQuietU R L :=
  fun x hx y hy hxy => (h y hy x hx hxy.symm).symm

theorem ss_union_chunk_quiet {l r base out : Nat} {L R : List Blk} {buf : List Nat}
    (hL : L ≠ []) (hR : R ≠ []) (wL : BlocksWF L) (wR : BlocksWF R)
    (al : HeadersAt m l L) (ar : HeadersAt m r R) :
    (BlocksQuietU L R → (ss_union_chunk_prog dbg m l r L.length R.length base buf out).NoAct) ∧
    (∀ v, ss_union_chunk_prog dbg m l r L.length R.length base buf out = .ret v → BlocksQuietU L R) := by
  have hi := ss_union_chunk_loop_quiet (dbg := dbg) (base := base) (L.length + R.length + 1)
    (s := { l := l, data_l := l + L.length * 2, r := r, data_r := r + R.length * 2, out := out, buf := buf })
    hL hR wL wR al ar (end_l := l + L.length * 2) (end_r := r + R.length * 2)
    (show l + 2 * L.length = _ by omega) (show r + 2 * R.length = _ by omega)
  unfold ss_union_chunk_prog
  constructor
  · intro hq
    refine noAct_lift_bind (fun _ _ => noAct_lift_bind (fun _ _ => noAct_bind (hi.1 hq) (fun _ _ => ?_)))
    exact noAct_lift_bind (fun _ _ => noAct_lift_bind (fun _ _ => trivial))
  · intro v hv
    obtain ⟨-, -, hv⟩ := lift_bind_ret_inv hv
    obtain ⟨-, -, hv⟩ := lift_bind_ret_inv hv
    obtain ⟨s, e, -⟩ := bind_ret_inv hv
    exact hi.2 s e

theorem union_chunks_quiet {il ir : It} {a b : Chk} {L R : List Chk} {base out : Nat}
    {buf : List Nat} (hl : ItOn pad m il (a :: L)) (hr : ItOn pad m ir (b :: R)) :
    (a.body.QuietU b.body → (union_chunks_prog dbg m il ir base buf out).NoAct) ∧
    (∀ v, union_chunks_prog dbg m il ir base buf out = .ret v → a.body.QuietU b.body) := by
  have wa := hl.wf.head.2
  have wb := hr.wf.head.2
  have ba : BodyAt _ _ _ _ := hl.at_.2.1
  have bb : BodyAt _ _ _ _ := hr.at_.2.1
  unfold union_chunks_prog
  cases hA : a.body with
  | full =>
    rw [hl.type_full hA, lift_ok_bind]
    cases hB : b.body with
    | full =>
      rw [hr.type_full hB, lift_ok_bind]
      simp only [chunk_pair, type_sparse, type_dense, type_full, Nat.reduceMul, Nat.reduceAdd,
        Nat.reduceEqDiff, if_true, if_false]
      exact ⟨fun _ => noAct_lift _, fun _ _ => trivial⟩
    | dense vs =>
      rw [hr.type_dense hB, lift_ok_bind]
      simp only [chunk_pair, type_sparse, type_dense, type_full, Nat.reduceMul, Nat.reduceAdd,
        Nat.reduceEqDiff, if_true, if_false]
      exact ⟨fun _ => noAct_lift _, fun _ _ => trivial⟩
    | sparse bs =>
      rw [hr.type_sparse hB, lift_ok_bind]
      simp only [chunk_pair, type_sparse, type_dense, type_full, Nat.reduceMul, Nat.reduceAdd,
        Nat.reduceEqDiff, if_true, if_false]
      exact ⟨fun _ => noAct_lift _, fun _ _ => trivial⟩
  | dense vs =>
    rw [hl.type_dense hA, lift_ok_bind]
    cases hB : b.body with
    | full =>
      rw [hr.type_full hB, lift_ok_bind]
      simp only [chunk_pair, type_sparse, type_dense, type_full, Nat.reduceMul, Nat.reduceAdd,
        Nat.reduceEqDiff, if_true, if_false]
      exact ⟨fun _ => noAct_lift _, fun _ _ => trivial⟩
    | dense vs =>
      rw [hr.type_dense hB, lift_ok_bind]
      simp only [chunk_pair, type_sparse, type_dense, type_full, Nat.reduceMul, Nat.reduceAdd,
        Nat.reduceEqDiff, if_true, if_false]
      exact ⟨fun _ => noAct_lift _, fun _ _ => trivial⟩
    | sparse bs =>
      rw [hr.type_sparse hB, lift_ok_bind]
      refine ⟨fun h => h.elim, fun v h => ?_⟩
      simp only [chunk_pair, type_sparse, type_dense, type_full, Nat.reduceMul, Nat.reduceAdd,
        Nat.reduceEqDiff, if_true, if_false, hr.blocks_sparse hB, lift_ok_bind] at h
      cases h
  | sparse bs =>
    rw [hl.type_sparse hA, lift_ok_bind]
    rw [hA] at wa ba
    cases hB : b.body with
    | full =>
      rw [hr.type_full hB, lift_ok_bind]
      simp only [chunk_pair, type_sparse, type_dense, type_full, Nat.reduceMul, Nat.reduceAdd,
        Nat.reduceEqDiff, if_true, if_false]
      exact ⟨fun _ => noAct_lift _, fun _ _ => trivial⟩
    | dense vs =>
      rw [hr.type_dense hB, lift_ok_bind]
      refine ⟨fun h => h.elim, fun v h => ?_⟩
      simp only [chunk_pair, type_sparse, type_dense, type_full, Nat.reduceMul, Nat.reduceAdd,
        Nat.reduceEqDiff, if_true, if_false, hl.blocks_sparse hA, lift_ok_bind] at h
      cases h
    | sparse cs =>
      rw [hB] at wb bb
      rw [hr.type_sparse hB, lift_ok_bind]
      simp only [chunk_pair, type_sparse, type_dense, type_full, Nat.reduceMul, Nat.reduceAdd,
        Nat.reduceEqDiff, if_true, if_false, hl.blocks_sparse hA, hr.blocks_sparse hB, lift_ok_bind]
      have ha := BlocksAt.headers ba
      have hb := BlocksAt.headers bb
      split
      · exact ss_union_chunk_quiet wa.1 wb.1 wa.2 wb.2 ha hb
      · have := ss_union_chunk_quiet (dbg := dbg) (base := base) (out := out) (buf := buf) wb.1 wa.1 wb.2
          wa.2 hb ha
        exact ⟨fun h => this.1 (BlocksQuietU.symm h), fun v h => BlocksQuietU.symm (this.2 v h)⟩

theorem pairwise_union_loop_quiet (f : Nat) {il ir : It} {L R : List Chk} {out : Nat} {buf : List Nat}
    (hL : L ≠ []) (hR : R ≠ []) (hl : ItOn pad m il L) (hr : ItOn pad m ir R) :
    (ChunksQuietU L R → (pairwise_union_loop_prog dbg m f il ir buf out).NoAct) ∧
    (∀ v, pairwise_union_loop_prog dbg m f il ir buf out = .ret v → ChunksQuietU L R) := by
  induction f generalizing il ir L R out buf with
  | zero => exact ⟨fun _ => noAct_lift _, fun v h => by cases h⟩
  | succ f ih =>
    obtain ⟨a, L, rfl⟩ := List.exists_cons_of_ne_nil hL
    obtain ⟨b, R, rfl⟩ := List.exists_cons_of_ne_nil hR
    have ia := hl.wf.head.1
    have ib := hr.wf.head.1
    have ga := hl.wf.head_lt
    have gb := hr.wf.head_lt
    obtain ⟨il1, nl, hl1, -⟩ := hl.next
    obtain ⟨ir1, nr, hr1, -⟩ := hr.next
    unfold pairwise_union_loop_prog
    rw [hl.id, lift_ok_bind, hr.id, lift_ok_bind]
    simp only [u16_lt (show a.id < 65536 by omega), u16_lt (show b.id < 65536 by omega)]
    by_cases hab : a.id = b.id
    · simp only [if_pos hab]
      have split : ChunksQuietU (a :: L) (b :: R) ↔ a.body.QuietU b.body ∧ ChunksQuietU L R := by
        constructor
        · intro h
          exact ⟨h a List.mem_cons_self b List.mem_cons_self hab,
            fun x hx y hy => h x (List.mem_cons_of_mem _ hx) y (List.mem_cons_of_mem _ hy)⟩
        · rintro ⟨h, h'⟩ x hx y hy hxy
          rcases List.mem_cons.mp hx with rfl | hx
          · rcases List.mem_cons.mp hy with rfl | hy
            · exact h
            · have := gb y hy; omega
          · rcases List.mem_cons.mp hy with rfl | hy
            · have := ga x hx; omega
            · exact h' x hx y hy hxy
      have main : ∀ (n : Nat) (buf : List Nat),
          ((ChunksQuietU L R →
            (if (!il1.has_next || !ir1.has_next) = true then (.ret (il1, ir1, out + n, buf) : Prog UScratch _)
              else pairwise_union_loop_prog dbg m f il1 ir1 buf (out + n)).NoAct) ∧
          (∀ v, (if (!il1.has_next || !ir1.has_next) = true then
                (.ret (il1, ir1, out + n, buf) : Prog UScratch _)
              else pairwise_union_loop_prog dbg m f il1 ir1 buf (out + n)) = .ret v →
            ChunksQuietU L R)) := by
        intro n buf
        cases L with
        | nil =>
          rw [hl1.has_next_nil]
          exact ⟨fun _ => trivial, fun _ _ x hx => by cases hx⟩
        | cons c L =>
          cases R with
          | nil =>
            rw [hr1.has_next_nil, Bool.not_false, Bool.or_true, if_pos rfl]
            exact ⟨fun _ => trivial, fun _ _ x _ y hy => by cases hy⟩
          | cons d R =>
            rw [hl1.has_next, hr1.has_next, if_neg (by decide)]
            exact ih (List.cons_ne_nil _ _) (List.cons_ne_nil _ _) hl1 hr1
      rw [split]
      constructor
      · rintro ⟨h, h'⟩
        refine noAct_bind ((union_chunks_quiet hl hr).1 h) (fun p _ => ?_)
        simp only [nl, nr, lift_ok_bind]
        exact (main p.1 p.2).1 h'
      · intro v hv
        obtain ⟨p, e, hv⟩ := bind_ret_inv hv
        simp only [nl, nr, lift_ok_bind] at hv
        exact ⟨(union_chunks_quiet hl hr).2 _ e, (main p.1 p.2).2 v hv⟩
    · simp only [if_neg hab]
      by_cases hlt : a.id < b.id
      · simp only [if_pos hlt]
        have drop : ChunksQuietU L (b :: R) → ChunksQuietU (a :: L) (b :: R) := by
          intro h x hx y hy hxy
          rcases List.mem_cons.mp hx with rfl | hx
          · have := hr.wf.ge_head y hy; omega
          · exact h x hx y hy hxy
        have main : ∀ (n : Nat) (buf : List Nat),
            ((ChunksQuietU (a :: L) (b :: R) →
              (if (!il1.has_next) = true then (.ret (il1, ir, out + n, buf) : Prog UScratch _)
                else pairwise_union_loop_prog dbg m f il1 ir buf (out + n)).NoAct) ∧
            (∀ v, (if (!il1.has_next) = true then (.ret (il1, ir, out + n, buf) : Prog UScratch _)
                else pairwise_union_loop_prog dbg m f il1 ir buf (out + n)) = .ret v →
              ChunksQuietU (a :: L) (b :: R))) := by
          intro n buf
          cases L with
          | nil =>
            rw [hl1.has_next_nil]
            exact ⟨fun _ => trivial, fun _ _ => drop (fun x hx => by cases hx)⟩
          | cons c L =>
            rw [hl1.has_next, if_neg (by decide)]
            have hi := ih (out := out + n) (buf := buf) (List.cons_ne_nil _ _) hR hl1 hr
            exact ⟨fun hq => hi.1 (fun x hx => hq x (List.mem_cons_of_mem _ hx)),
              fun v hv => drop (hi.2 v hv)⟩
        constructor
        · intro hq
          refine noAct_lift_bind (fun p _ => ?_)
          simp only [nl, lift_ok_bind]
          exact (main p.1 p.2).1 hq
        · intro v hv
          obtain ⟨p, e, hv⟩ := lift_bind_ret_inv hv
          simp only [nl, lift_ok_bind] at hv
          exact (main p.1 p.2).2 v hv
      · simp only [if_neg hlt]
        have drop : ChunksQuietU (a :: L) R → ChunksQuietU (a :: L) (b :: R) := by
          intro h x hx y hy hxy
          rcases List.mem_cons.mp hy with rfl | hy
          · have := hl.wf.ge_head x hx; omega
          · exact h x hx y hy hxy
        have main : ∀ (n : Nat) (buf : List Nat),
            ((ChunksQuietU (a :: L) (b :: R) →
              (if (!ir1.has_next) = true then (.ret (il, ir1, out + n, buf) : Prog UScratch _)
                else pairwise_union_loop_prog dbg m f il ir1 buf (out + n)).NoAct) ∧
            (∀ v, (if (!ir1.has_next) = true then (.ret (il, ir1, out + n, buf) : Prog UScratch _)
                else pairwise_union_loop_prog dbg m f il ir1 buf (out + n)) = .ret v →
              ChunksQuietU (a :: L) (b :: R))) := by
          intro n buf
          cases R with
          | nil =>
            rw [hr1.has_next_nil]
            exact ⟨fun _ => trivial, fun _ _ => drop (fun x _ y hy => by cases hy)⟩
          | cons c R =>
            rw [hr1.has_next, if_neg (by decide)]
            have hi := ih (out := out + n) (buf := buf) hL (List.cons_ne_nil _ _) hl hr1
            exact ⟨fun hq => hi.1 (fun x hx y hy => hq x hx y (List.mem_cons_of_mem _ hy)),
              fun v hv => drop (hi.2 v hv)⟩
        constructor
        · intro hq
          refine noAct_lift_bind (fun p _ => ?_)
          simp only [nr, lift_ok_bind]
          exact (main p.1 p.2).1 hq
        · intro v hv
          obtain ⟨p, e, hv⟩ := lift_bind_ret_inv hv
          simp only [nr, lift_ok_bind] at hv
          exact (main p.1 p.2).2 v hv

theorem pairwise_union_quiet {l r : SSeq} {L R : List Chk} {buf : List Nat} {out : Nat}
    (hl : SeqAt pad m l L) (hr : SeqAt pad m r R) :
    (ChunksQuietU L R → (pairwise_union_prog dbg m l r buf out).NoAct) ∧
    (∀ v, pairwise_union_prog dbg m l r buf out = .ret v → ChunksQuietU L R) := by
  have hi := pairwise_union_loop_quiet (dbg := dbg) (l.chunks + r.chunks + 1) (out := out) (buf := buf)
    hl.ne hr.ne hl.begin hr.begin
  unfold pairwise_union_prog
  constructor
  · intro hq
    refine noAct_bind (hi.1 hq) (fun _ _ => ?_)
    exact noAct_lift_bind (fun _ _ => noAct_lift_bind (fun _ _ => trivial))
  · intro v hv
    obtain ⟨p, e, -⟩ := bind_ret_inv hv
    exact hi.2 p e

end Sliced
