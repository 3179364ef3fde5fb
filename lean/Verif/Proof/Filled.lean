import Verif.Model.UnionMany
import Verif.Model.IntersectionMany
import Verif.Model.Union
import Verif.Proof.IntersectBlock
/-!
# The slots that an operation claims to have written

Whatever is in memory, the slots before the position that an operation has reached hold 32-bit values
that were stored there.
-/
namespace Sliced

/-- what holds if the run ends well -/
def Post {α : Type} (P : α → Prop) (x : Res α) : Prop := ∀ a, x = .ok a → P a

/-- the slots from `k` on and before `t` hold 32-bit values -/
def Fill (k t : Nat) (o : List Nat) : Prop := ∀ i, k ≤ i → i < t → ∃ v, o[i]? = some v ∧ v < 4294967296

section
variable {α β : Type} {P : α → Prop} {Q : β → Prop}

theorem Post.ok {a : α} (h : P a) : Post P (.ok a) := by
  intro b e
  injection e with e
  rw [← e]
  exact h
theorem Post.pure {a : α} (h : P a) : Post P (Pure.pure a) := Post.ok h
theorem Post.error (e : Err) : Post P (.error e) := fun _ h => by cases h

theorem Post.bind {x : Res α} {f : α → Res β} (h : Post P x) (hf : ∀ a, P a → Post Q (f a)) :
    Post Q (x >>= f) := by
  cases x with
  | ok a => exact hf a (h a rfl)
  | error e => exact Post.error e

theorem Post.any {x : Res α} {f : α → Res β} (hf : ∀ a, Post Q (f a)) : Post Q (x >>= f) :=
  Post.bind (P := fun _ => True) (fun _ _ => trivial) (fun a _ => hf a)

theorem Post.map {x : Res α} {f : α → β} (h : Post P x) (hf : ∀ a, P a → Q (f a)) :
    Post Q (f <$> x) := by
  cases x with
  | ok a => exact Post.ok (hf a (h a rfl))
  | error e => exact Post.error e

theorem Post.ite {c : Prop} [Decidable c] {x x' : Res α} (h1 : c → Post P x) (h2 : ¬ c → Post P x') :
    Post P (if c then x else x') := by
  split
  · exact h1 ‹_›
  · exact h2 ‹_›

theorem Post.mono {P' : α → Prop} {x : Res α} (h : Post P x) (hp : ∀ a, P a → P' a) : Post P' x :=
  fun a e => hp a (h a e)

theorem unreachable_post (dbg : Bool) : Post P (unreachable dbg) := by
  unfold unreachable
  split <;> exact Post.error _
end

theorem u32_small (v : Nat) : u32 v < 4294967296 := Nat.mod_lt _ (by decide)

variable {k : Nat}

theorem Fill.mono {t t' : Nat} {o : List Nat} (h : Fill k t o) (ht : t' ≤ t) : Fill k t' o :=
  fun i h1 h2 => h i h1 (by omega)

theorem Fill.wr {t i v : Nat} {o : List Nat} (h : Fill k t o) (hv : v < 4294967296) :
    Post (Fill k t) (wr o i v) := by
  unfold Sliced.wr
  refine Post.ite (fun hi => Post.ok fun j h1 h2 => ?_) (fun _ => Post.error _)
  by_cases hj : i = j
  · subst hj
    exact ⟨v, List.getElem?_set_self hi, hv⟩
  · rw [List.getElem?_set_ne hj]
    exact h j h1 h2

theorem Fill.wr_at {p q v : Nat} {o : List Nat} (h : Fill k p o) (hq : q = p) (hv : v < 4294967296) :
    Post (Fill k (p + 1)) (Sliced.wr o q v) := by
  subst hq
  unfold Sliced.wr
  refine Post.ite (fun hi => Post.ok fun j h1 h2 => ?_) (fun _ => Post.error _)
  by_cases hj : q = j
  · subst hj
    exact ⟨v, List.getElem?_set_self hi, hv⟩
  · rw [List.getElem?_set_ne hj]
    exact h j h1 (by omega)

theorem Fill.wrs {vs : List Nat} {t i : Nat} {o : List Nat} (h : Fill k t o)
    (hv : ∀ v ∈ vs, v < 4294967296) : Post (Fill k t) (wrs o i vs) := by
  induction vs generalizing o i with
  | nil => exact Post.ok h
  | cons v vs ih =>
    unfold Sliced.wrs
    exact (h.wr (hv v (List.mem_cons_self ..))).bind
      (fun o h => ih h (fun w hw => hv w (List.mem_cons_of_mem _ hw)))

theorem Fill.wrs_at {vs : List Nat} {p q : Nat} {o : List Nat} (h : Fill k p o) (hq : q = p)
    (hv : ∀ v ∈ vs, v < 4294967296) : Post (Fill k (p + vs.length)) (Sliced.wrs o q vs) := by
  subst hq
  induction vs generalizing o q with
  | nil => exact Post.ok h
  | cons v vs ih =>
    unfold Sliced.wrs
    refine (h.wr_at rfl (hv v (List.mem_cons_self ..))).bind (fun o h => ?_)
    refine (ih (fun w hw => hv w (List.mem_cons_of_mem _ hw)) h).mono (fun o h => h.mono ?_)
    rw [List.length_cons]
    omega

theorem cvtAdd_small (base : Nat) (v : List Nat) : ∀ x ∈ cvtAdd base v, x < 4294967296 := by
  intro x hx
  obtain ⟨y, -, rfl⟩ := List.mem_map.mp hx
  exact u32_small _

theorem cvtAdd_len {base : Nat} {v : List Nat} (h : 8 ≤ v.length) : (cvtAdd base v).length = 8 := by
  unfold cvtAdd
  rw [List.length_map, List.length_take]
  omega

theorem mapM_len {α β : Type} {f : α → Res β} (l : List α) : Post (fun r => r.length = l.length) (l.mapM f) := by
  induction l with
  | nil => exact Post.ok rfl
  | cons a l ih =>
    rw [List.mapM_cons]
    exact Post.any fun b => ih.bind (fun r hr => Post.pure (by simp [hr]))

theorem lddqu_len (m : Mem) (a : Nat) : Post (fun v => v.length = 16) (lddqu m a) :=
  (mapM_len _).mono (fun r hr => by rw [hr, List.length_range])

/-- the position reached, and the buffer filled up to it -/
def Upto (k p : Nat) (x : Nat × List Nat) : Prop := p ≤ x.1 ∧ Fill k x.1 x.2
/-- the number of values, and the buffer filled with them -/
def More (k p : Nat) (x : Nat × List Nat) : Prop := Fill k (p + x.1) x.2
/-- the number of values, other results, and the buffer filled -/
def MoreRes {σ : Type} (k p : Nat) (x : Nat × σ × List Nat) : Prop := Fill k (p + x.1) x.2.2
/-- the position reached, other results, and the buffer filled -/
def UptoRes {σ : Type} (k p : Nat) (x : Nat × σ × List Nat) : Prop := p ≤ x.1 ∧ Fill k x.1 x.2.2

theorem Upto.more {p : Nat} {x : Nat × List Nat} (h : Upto k p x) : More k p (x.1 - p, x.2) := by
  show Fill k (p + (x.1 - p)) x.2
  rw [Nat.add_sub_cancel' h.1]
  exact h.2

theorem Fill.scan_word (f : Nat) {w base p : Nat} {o : List Nat} (h : Fill k p o) :
    Post (Upto k p) (scan_word f w base o p) := by
  induction f generalizing w o p with
  | zero => exact Post.error _
  | succ f ih =>
    unfold Sliced.scan_word
    refine Post.ite (fun _ => Post.ok ⟨Nat.le_refl _, h⟩) (fun _ => Post.any fun r => ?_)
    exact (h.wr_at rfl (u32_small _)).bind
      (fun o h => (ih h).mono (fun x hx => ⟨by have := hx.1; omega, hx.2⟩))

theorem Fill.decode_bitmap_loop {W : Words} (n : Nat) {i base p : Nat} {o : List Nat} (h : Fill k p o) :
    Post (Upto k p) (decode_bitmap_loop W n i base o p) := by
  induction n generalizing i base o p with
  | zero => exact Post.ok ⟨Nat.le_refl _, h⟩
  | succ n ih =>
    unfold Sliced.decode_bitmap_loop
    exact Post.any fun w => (h.scan_word 65).bind
      (fun x hx => (ih hx.2).mono (fun y hy => ⟨Nat.le_trans hx.1 hy.1, hy.2⟩))

theorem Fill.decode_bitmap {W : Words} {n base p : Nat} {o : List Nat} (h : Fill k p o) :
    Post (More k p) (decode_bitmap W n base o p) := by
  unfold Sliced.decode_bitmap
  exact (h.decode_bitmap_loop n).bind (fun x hx => Post.pure hx.more)

theorem Fill.operate_loop {op : Nat → Nat → Nat} {l r : Words} (n : Nat) {i base p : Nat}
    {o : List Nat} (h : Fill k p o) : Post (Upto k p) (operate_loop op l r n i base o p) := by
  induction n generalizing i base o p with
  | zero => exact Post.ok ⟨Nat.le_refl _, h⟩
  | succ n ih =>
    unfold Sliced.operate_loop
    exact Post.any fun _ => Post.any fun _ => (h.scan_word 65).bind
      (fun x hx => (ih hx.2).mono (fun y hy => ⟨Nat.le_trans hx.1 hy.1, hy.2⟩))

theorem Fill.operate_bitmaps {op : Nat → Nat → Nat} {l r : Words} {n base p : Nat} {o : List Nat}
    (h : Fill k p o) : Post (More k p) (operate_bitmaps op l r n base o p) := by
  unfold Sliced.operate_bitmaps
  exact (h.operate_loop n).bind (fun x hx => Post.pure hx.more)

theorem Fill.decode_lane {m : Mem} {src base p q : Nat} {o : List Nat} (h : Fill k p o) (hq : q = p) :
    Post (Fill k (p + 8)) (decode_lane m src base o q) := by
  unfold Sliced.decode_lane storeu
  refine (lddqu_len m src).bind (fun v hv => ?_)
  have := h.wrs_at hq (cvtAdd_small base v)
  rw [cvtAdd_len (by omega)] at this
  exact this

theorem Fill.decode_sparse_block {m : Mem} {begin c base p : Nat} {o : List Nat} (h : Fill k p o)
    (hc : c ≤ 32) : Post (More k p) (decode_sparse_block m begin c base o p) := by
  unfold Sliced.decode_sparse_block
  refine (h.decode_lane rfl).bind (fun o h => ?_)
  refine Post.ite (fun _ => Post.pure (h.mono (by simp only; omega))) (fun _ => ?_)
  refine (h.decode_lane rfl).bind (fun o h => ?_)
  refine (h.decode_lane (by omega)).bind (fun o h => ?_)
  refine (h.decode_lane (by omega)).bind (fun o h => ?_)
  exact Post.pure (h.mono (by simp only; omega))

theorem Fill.decode_sparse_chunk_loop {m : Mem} {base end_ : Nat} (f : Nat) {begin data p : Nat}
    {o : List Nat} (h : Fill k p o) :
    Post (Upto k p) (decode_sparse_chunk_loop m base end_ f begin data o p) := by
  induction f generalizing begin data o p with
  | zero => exact Post.error _
  | succ f ih =>
    unfold Sliced.decode_sparse_chunk_loop
    refine Post.ite (fun _ => Post.ok ⟨Nat.le_refl _, h⟩) (fun _ => ?_)
    refine Post.any fun id => Post.any fun c1 => ?_
    refine Post.ite (fun hc => ?_) (fun _ => ?_)
    · exact (h.decode_sparse_block (by omega)).bind
        (fun x hx => (ih hx).mono (fun y hy => ⟨by have := hy.1; omega, hy.2⟩))
    · exact h.decode_bitmap.bind
        (fun x hx => (ih hx).mono (fun y hy => ⟨by have := hy.1; omega, hy.2⟩))

theorem Fill.decode_sparse_chunk {dbg : Bool} {m : Mem} {begin blocks base p : Nat} {o : List Nat}
    (h : Fill k p o) : Post (More k p) (decode_sparse_chunk dbg m begin blocks base o p) := by
  unfold Sliced.decode_sparse_chunk
  exact Post.any fun _ => (h.decode_sparse_chunk_loop _).bind (fun x hx => Post.pure hx.more)

theorem Fill.decode_full_chunk {base p : Nat} {o : List Nat} (h : Fill k p o) :
    Post (More k p) (decode_full_chunk base o p) := by
  unfold Sliced.decode_full_chunk
  have : ∀ n, Post (Fill k (p + n)) (Sliced.wrs o p ((List.range n).map (fun i => u32 (i + base)))) := by
    intro n
    have := h.wrs_at (vs := (List.range n).map (fun i => u32 (i + base))) rfl (by
      intro v hv
      obtain ⟨i, -, rfl⟩ := List.mem_map.mp hv
      exact u32_small _)
    rwa [List.length_map, List.length_range] at this
  exact (this _).bind (fun o h => Post.pure h)

theorem Fill.decode_chunk {dbg : Bool} {m : Mem} {it : It} {p : Nat} {o : List Nat} (h : Fill k p o) :
    Post (More k p) (decode_chunk dbg m it o p) := by
  unfold Sliced.decode_chunk
  refine Post.any fun i => Post.any fun t => ?_
  refine Post.ite (fun _ => Post.any fun _ => h.decode_sparse_chunk) (fun _ => ?_)
  refine Post.ite (fun _ => h.decode_bitmap) (fun _ => ?_)
  exact Post.ite (fun _ => h.decode_full_chunk) (fun _ => unreachable_post _)

theorem Fill.decode_loop {dbg : Bool} {m : Mem} (n : Nat) {it : It} {p : Nat} {o : List Nat}
    (h : Fill k p o) : Post (Upto k p) (decode_loop dbg m n it o p) := by
  induction n generalizing it o p with
  | zero => exact Post.ok ⟨Nat.le_refl _, h⟩
  | succ n ih =>
    unfold Sliced.decode_loop
    exact h.decode_chunk.bind (fun x hx => Post.any fun it =>
      (ih hx).mono (fun y hy => ⟨by have := hy.1; omega, hy.2⟩))

theorem Fill.decode {dbg : Bool} {m : Mem} {s : SSeq} {p : Nat} {o : List Nat} (h : Fill k p o) :
    Post (More k p) (s.decode dbg m o p) := by
  unfold SSeq.decode
  exact (h.decode_loop _).bind (fun x hx => Post.pure hx.more)

/-! ## The intersection of two -/

theorem Fill.intersect_step {tab : Nat → List Nat} (ht : TabOk tab) {v w : List Nat}
    {cv cw base size p q : Nat} {o : List Nat} (h : Fill k (p + size) o) (hq : q = p + size) :
    Post (More k p) (intersect_step tab v cv w cw base size o q) := by
  subst hq
  have hm := cmpestrm_lt v cv w cw
  have hl := (ht _ hm).1
  have hp : popcount (cmpestrm v cv w cw) ≤ 16 := by
    rw [popcount_small hm]
    exact Nat.le_trans (List.length_filter_le _ _) (Nat.le_of_eq List.length_range)
  have hpl : (pshufb w (tab (cmpestrm v cv w cw))).length = 16 := by
    unfold pshufb
    rw [List.length_map, hl]
  unfold Sliced.intersect_step storeu
  simp only
  generalize popcount (cmpestrm v cv w cw) = c at hp ⊢
  generalize pshufb w (tab (cmpestrm v cv w cw)) = z at hpl ⊢
  have h1 := h.wrs_at rfl (cvtAdd_small base z)
  rw [cvtAdd_len (by omega)] at h1
  refine h1.bind (fun o h => ?_)
  refine Post.ite (fun _ => ?_) (fun _ => Post.pure (h.mono (by simp only; omega)))
  have h2 := h.wrs_at rfl (cvtAdd_small base (z.drop 8 ++ List.replicate 8 0))
  rw [cvtAdd_len (by simp)] at h2
  exact h2.bind (fun o h => Post.pure (h.mono (by simp only; omega)))

theorem Fill.scalar_loop {m : Mem} {end_l end_r base p : Nat} (f : Nat) {l r size : Nat} {o : List Nat}
    (h : Fill k (p + size) o) : Post (More k p) (scalar_loop m end_l end_r base p f l r size o) := by
  induction f generalizing l r size o with
  | zero => exact Post.error _
  | succ f ih =>
    unfold Sliced.scalar_loop
    refine Post.any fun u => ?_
    cases u with
    | none => exact Post.pure h
    | some l =>
      refine Post.any fun u => ?_
      cases u with
      | none => exact Post.pure h
      | some r =>
        refine Post.any fun x => Post.any fun y => ?_
        refine Post.ite (fun _ => ?_) (fun _ => ih h)
        refine (h.wr_at rfl (u32_small _)).bind (fun o h => ?_)
        refine Post.ite (fun _ => Post.pure h) (fun _ => ?_)
        exact Post.ite (fun _ => Post.pure h) (fun _ => ih h)

theorem Fill.ss_intersect_block {dbg : Bool} {tab : Nat → List Nat} (ht : TabOk tab) {m : Mem}
    {l r cl cr base p : Nat} {o : List Nat} (h : Fill k p o) :
    Post (More k p) (ss_intersect_block dbg tab m l r cl cr base o p) := by
  unfold Sliced.ss_intersect_block
  refine Post.any fun _ => Post.any fun _ => ?_
  refine Post.ite (fun _ => Post.any fun _ => Post.any fun _ => Fill.intersect_step ht h rfl) (fun _ => ?_)
  refine Post.ite (fun _ => ?_) (fun _ => ?_)
  · refine Post.any fun _ => Post.any fun _ => (Fill.intersect_step ht (p := p) h rfl).bind (fun x hx => ?_)
    exact Post.any fun _ => Fill.intersect_step ht hx rfl
  refine Post.ite (fun _ => ?_) (fun _ => Fill.scalar_loop _ h)
  refine Post.any fun _ => Post.any fun _ => (Fill.intersect_step ht (p := p) h rfl).bind (fun x hx => ?_)
  exact Post.any fun _ => Fill.intersect_step ht hx rfl

theorem Fill.ds_intersect_block_loop {m : Mem} {l r base p : Nat} (n : Nat) {i c : Nat} {o : List Nat}
    (h : Fill k (p + c) o) : Post (More k p) (ds_intersect_block_loop m l r base p n i c o) := by
  induction n generalizing i c o with
  | zero => exact Post.ok h
  | succ n ih =>
    unfold Sliced.ds_intersect_block_loop
    refine Post.any fun key => (h.wr_at rfl (u32_small _)).bind (fun o h => Post.any fun b => ih ?_)
    refine h.mono ?_
    split <;> omega

theorem Fill.intersect_blocks {dbg : Bool} {tab : Nat → List Nat} (ht : TabOk tab) {m : Mem}
    {dl dr cl cr base p : Nat} {o : List Nat} (h : Fill k p o) :
    Post (More k p) (intersect_blocks dbg tab m dl dr cl cr base o p) := by
  unfold Sliced.intersect_blocks
  refine Post.ite (fun _ => h.ss_intersect_block ht) (fun _ => ?_)
  refine Post.ite (fun _ => Fill.ds_intersect_block_loop _ h) (fun _ => ?_)
  refine Post.ite (fun _ => Fill.ds_intersect_block_loop _ h) (fun _ => ?_)
  exact Post.ite (fun _ => h.operate_bitmaps) (fun _ => unreachable_post _)

theorem Fill.ss_intersect_chunk_loop {dbg : Bool} {tab : Nat → List Nat} (ht : TabOk tab) {m : Mem}
    {end_l end_r base : Nat} (f : Nat) {l dl r dr p : Nat} {o : List Nat} (h : Fill k p o) :
    Post (Upto k p) (ss_intersect_chunk_loop dbg tab m end_l end_r base f l dl r dr o p) := by
  induction f generalizing l dl r dr o p with
  | zero => exact Post.error _
  | succ f ih =>
    unfold Sliced.ss_intersect_chunk_loop
    refine Post.any fun u => ?_
    cases u with
    | none => exact Post.pure ⟨Nat.le_refl _, h⟩
    | some x =>
      refine Post.any fun u => ?_
      cases u with
      | none => exact Post.pure ⟨Nat.le_refl _, h⟩
      | some y =>
        refine Post.any fun u => Post.any fun v => ?_
        refine Post.ite (fun _ => ?_) (fun _ => ih h)
        refine Post.any fun _ => Post.any fun _ => ?_
        refine (h.intersect_blocks ht).bind (fun x hx => ?_)
        exact Post.ite (fun _ => Post.pure ⟨by simp only; omega, hx⟩)
          (fun _ => (ih hx).mono (fun y hy => ⟨by have := hy.1; omega, hy.2⟩))

theorem Fill.ss_intersect_chunk {dbg : Bool} {tab : Nat → List Nat} (ht : TabOk tab) {m : Mem}
    {l r bl br base p : Nat} {o : List Nat} (h : Fill k p o) :
    Post (More k p) (ss_intersect_chunk dbg tab m l r bl br base o p) := by
  unfold Sliced.ss_intersect_chunk
  exact Post.any fun _ => Post.any fun _ =>
    (h.ss_intersect_chunk_loop ht _).bind (fun x hx => Post.pure hx.more)

theorem Fill.ds_intersect_chunk {dbg : Bool} {m : Mem} {l r br base p : Nat} {x o : List Nat}
    (h : Fill k p o) : Post (MoreRes k p) (ds_intersect_chunk dbg m l r br base x o p) := by
  unfold Sliced.ds_intersect_chunk
  exact Post.any fun _ => h.operate_bitmaps.bind (fun x hx => Post.pure hx)

theorem Fill.intersect_chunks {dbg : Bool} {tab : Nat → List Nat} (ht : TabOk tab) {m : Mem}
    {it_l it_r : It} {base p : Nat} {x o : List Nat} (h : Fill k p o) :
    Post (MoreRes k p) (intersect_chunks dbg tab m it_l it_r base x o p) := by
  have keep : ∀ u, More k p u → MoreRes k p ((fun (p : Nat × List Nat) => (p.1, x, p.2)) u) :=
    fun u hu => hu
  unfold Sliced.intersect_chunks
  refine Post.any fun _ => Post.any fun _ => ?_
  refine Post.ite (fun _ => ?_) (fun _ => ?_)
  · refine Post.any fun _ => Post.any fun _ => ?_
    exact Post.ite (fun _ => (h.ss_intersect_chunk ht).map keep)
      (fun _ => (h.ss_intersect_chunk ht).map keep)
  refine Post.ite (fun _ => Post.any fun _ => h.ds_intersect_chunk) (fun _ => ?_)
  refine Post.ite (fun _ => Post.any fun _ => h.decode_sparse_chunk.map keep) (fun _ => ?_)
  refine Post.ite (fun _ => Post.any fun _ => h.ds_intersect_chunk) (fun _ => ?_)
  refine Post.ite (fun _ => h.operate_bitmaps.map keep) (fun _ => ?_)
  refine Post.ite (fun _ => h.decode_bitmap.map keep) (fun _ => ?_)
  refine Post.ite (fun _ => Post.any fun _ => h.decode_sparse_chunk.map keep) (fun _ => ?_)
  refine Post.ite (fun _ => h.decode_bitmap.map keep) (fun _ => ?_)
  exact Post.ite (fun _ => h.decode_full_chunk.map keep) (fun _ => unreachable_post _)

theorem Fill.pairwise_intersection_loop {dbg : Bool} {tab : Nat → List Nat} (ht : TabOk tab) {m : Mem}
    (f : Nat) {it_l it_r : It} {p : Nat} {x o : List Nat} (h : Fill k p o) :
    Post (UptoRes k p) (pairwise_intersection_loop dbg tab m f it_l it_r x o p) := by
  induction f generalizing it_l it_r x o p with
  | zero => exact Post.error _
  | succ f ih =>
    unfold Sliced.pairwise_intersection_loop
    refine Post.ite (fun _ => ?_) (fun _ => Post.ok ⟨Nat.le_refl _, h⟩)
    refine Post.any fun _ => Post.any fun _ => ?_
    refine Post.ite (fun _ => ?_) (fun _ => ?_)
    · refine (h.intersect_chunks ht).bind (fun u hu => ?_)
      exact Post.any fun _ => Post.any fun _ =>
        (ih hu).mono (fun y hy => ⟨by have := hy.1; omega, hy.2⟩)
    · exact Post.ite (fun _ => Post.any fun _ => ih h) (fun _ => Post.any fun _ => ih h)

theorem UptoRes.more {σ : Type} {p : Nat} {x : Nat × σ × List Nat} (h : UptoRes k p x) :
    MoreRes k p (x.1 - p, x.2.1, x.2.2) := by
  show Fill k (p + (x.1 - p)) x.2.2
  rw [Nat.add_sub_cancel' h.1]
  exact h.2

theorem Fill.pairwise_intersection {dbg : Bool} {tab : Nat → List Nat} (ht : TabOk tab) {m : Mem}
    {l r : SSeq} {p : Nat} {x o : List Nat} (h : Fill k p o) :
    Post (MoreRes k p) (pairwise_intersection dbg tab m l r x o p) := by
  unfold Sliced.pairwise_intersection
  exact (h.pairwise_intersection_loop ht _).bind (fun u hu => Post.pure hu.more)

/-! ## The union of two -/

theorem Fill.ss_union_block_loop {m : Mem} {end_l end_r base p : Nat} (f : Nat) {l r size : Nat}
    {o : List Nat} (h : Fill k (p + size) o) :
    Post (fun u => l ≤ u.1 ∧ r ≤ u.2.1 ∧ Fill k (p + u.2.2.1) u.2.2.2)
      (ss_union_block_loop m end_l end_r base p f l r size o) := by
  induction f generalizing l r size o with
  | zero => exact Post.error _
  | succ f ih =>
    unfold Sliced.ss_union_block_loop
    refine Post.any fun _ => Post.any fun _ => ?_
    refine Post.ite (fun _ => ?_) (fun _ => ?_)
    · refine (h.wr_at rfl (u32_small _)).bind (fun o h => ?_)
      exact Post.ite (fun _ => Post.pure ⟨by simp only; omega, Nat.le_refl _, h⟩)
        (fun _ => (ih h).mono (fun u hu => ⟨by have := hu.1; omega, hu.2⟩))
    refine Post.ite (fun _ => ?_) (fun _ => ?_)
    · refine (h.wr_at rfl (u32_small _)).bind (fun o h => ?_)
      exact Post.ite (fun _ => Post.pure ⟨Nat.le_refl _, by simp only; omega, h⟩)
        (fun _ => (ih h).mono (fun u hu => ⟨hu.1, by have := hu.2.1; omega, hu.2.2⟩))
    · refine (h.wr_at rfl (u32_small _)).bind (fun o h => ?_)
      exact Post.ite (fun _ => Post.pure ⟨by simp only; omega, by simp only; omega, h⟩)
        (fun _ => (ih h).mono (fun u hu =>
          ⟨by have := hu.1; omega, by have := hu.2.1; omega, hu.2.2⟩))

theorem Fill.ss_union_block {dbg : Bool} {m : Mem} {l r cl cr base p : Nat} {o : List Nat}
    (h : Fill k p o) (hl : cl ≤ 32) (hr : cr ≤ 32) :
    Post (More k p) (ss_union_block dbg m l r cl cr base o p) := by
  unfold Sliced.ss_union_block
  refine Post.any fun _ => Post.any fun _ => ?_
  refine (Fill.ss_union_block_loop (p := p) _ h).bind (fun u hu => ?_)
  obtain ⟨l', r', size, o⟩ := u
  obtain ⟨h1, h2, h⟩ := hu
  simp only at h1 h2 h ⊢
  have fin : ∀ u : Nat × List Nat, More k p u → Post (More k p)
      (if r' ≠ l + cl then do
        let (n, buf) ← Sliced.decode_sparse_block m r' (r + cr - r') base u.2 (p + u.1)
        return (u.1 + n, buf)
      else return (u.1, u.2)) := by
    intro u hu
    refine Post.ite (fun _ => ?_) (fun _ => Post.pure hu)
    refine (Fill.decode_sparse_block (p := p + u.1) hu (by omega)).bind (fun x hx => Post.pure ?_)
    exact hx.mono (by simp only; omega)
  by_cases hl' : l' ≠ l + cl
  · rw [if_pos hl']
    exact (h.decode_sparse_block (by omega)).bind
      (fun u hu => fin (size + u.1, u.2) (hu.mono (by simp only; omega)))
  · rw [if_neg hl']
    exact fin (size, o) h

theorem Fill.ds_union_block {m : Mem} {l r c base p : Nat} {x o : List Nat} (h : Fill k p o) :
    Post (MoreRes k p) (ds_union_block m l r c base x o p) := by
  unfold Sliced.ds_union_block
  exact Post.any fun _ => Post.any fun _ => h.operate_bitmaps.bind (fun x hx => Post.pure hx)

theorem block_type_small {c : Nat} (h : block_type c = type_sparse) : c < 31 := by
  unfold block_type at h
  split at h
  · assumption
  · cases h

theorem Fill.decode_block {m : Mem} {data c base p : Nat} {o : List Nat} (h : Fill k p o) :
    Post (More k p) (decode_block m data (block_type c) c base o p) := by
  unfold Sliced.decode_block
  exact Post.ite (fun hc => h.decode_sparse_block (by have := block_type_small hc; omega))
    (fun _ => h.decode_bitmap)

theorem Fill.decode_macro {m : Mem} {base ptr data p : Nat} {o : List Nat} (h : Fill k p o) :
    Post (fun u => p ≤ u.1 ∧ Fill k u.1 u.2.1) (decode_macro m base ptr data o p) := by
  unfold Sliced.decode_macro
  exact Post.any fun _ => Post.any fun _ => h.decode_block.bind
    (fun x hx => Post.pure ⟨Nat.le_add_right _ _, hx⟩)

theorem Fill.union_blocks {dbg : Bool} {m : Mem} {dl dr cl cr base p : Nat} {x o : List Nat}
    (h : Fill k p o) : Post (MoreRes k p) (union_blocks dbg m dl dr cl cr base x o p) := by
  have keep : ∀ u, More k p u → MoreRes k p ((fun (p : Nat × List Nat) => (p.1, x, p.2)) u) :=
    fun u hu => hu
  have small : block_pair (block_type cl) (block_type cr) = block_pair type_sparse type_sparse →
      cl < 31 ∧ cr < 31 := by
    unfold block_type
    split <;> split <;> intro h
    · omega
    all_goals cases h
  unfold Sliced.union_blocks
  refine Post.ite (fun hk => (h.ss_union_block (by have := small hk; omega)
    (by have := small hk; omega)).map keep) (fun _ => ?_)
  refine Post.ite (fun _ => h.ds_union_block) (fun _ => ?_)
  refine Post.ite (fun _ => h.ds_union_block) (fun _ => ?_)
  exact Post.ite (fun _ => h.operate_bitmaps.map keep) (fun _ => unreachable_post _)

theorem Fill.ss_union_chunk_loop {dbg : Bool} {m : Mem} {end_l end_r base : Nat} (f : Nat) {s : UState}
    (h : Fill k s.out s.buf) : Post (fun t => s.out ≤ t.out ∧ Fill k t.out t.buf)
      (ss_union_chunk_loop dbg m end_l end_r base f s) := by
  induction f generalizing s with
  | zero => exact Post.error _
  | succ f ih =>
    unfold Sliced.ss_union_chunk_loop
    refine Post.any fun _ => Post.any fun _ => ?_
    refine Post.ite (fun _ => ?_) (fun _ => ?_)
    · refine h.decode_macro.bind (fun u hu => ?_)
      exact Post.ite (fun _ => Post.pure hu)
        (fun _ => (ih hu.2).mono (fun t ht => ⟨Nat.le_trans hu.1 ht.1, ht.2⟩))
    refine Post.ite (fun _ => ?_) (fun _ => ?_)
    · refine h.decode_macro.bind (fun u hu => ?_)
      exact Post.ite (fun _ => Post.pure hu)
        (fun _ => (ih hu.2).mono (fun t ht => ⟨Nat.le_trans hu.1 ht.1, ht.2⟩))
    · refine Post.any fun cl1 => Post.any fun cr1 => h.union_blocks.bind (fun u hu => ?_)
      exact Post.ite (fun _ => Post.pure ⟨Nat.le_add_right _ _, hu⟩)
        (fun _ => (ih (s := ⟨s.l + 2, _, s.r + 2, _, s.out + u.1, u.2.1, u.2.2⟩) hu).mono
          (fun t ht => ⟨Nat.le_trans (Nat.le_add_right _ _) ht.1, ht.2⟩))

theorem Fill.decode_rest {m : Mem} {end_ base : Nat} (f : Nat) {ptr data p : Nat} {o : List Nat}
    (h : Fill k p o) : Post (Upto k p) (decode_rest m end_ base f ptr data o p) := by
  induction f generalizing ptr data o p with
  | zero => exact Post.error _
  | succ f ih =>
    unfold Sliced.decode_rest
    refine Post.ite (fun _ => ?_) (fun _ => Post.ok ⟨Nat.le_refl _, h⟩)
    exact h.decode_macro.bind (fun u hu =>
      (ih hu.2).mono (fun y hy => ⟨Nat.le_trans hu.1 hy.1, hy.2⟩))

theorem Fill.ss_union_chunk {dbg : Bool} {m : Mem} {l r bl br base p : Nat} {x o : List Nat}
    (h : Fill k p o) : Post (MoreRes k p) (ss_union_chunk dbg m l r bl br base x o p) := by
  unfold Sliced.ss_union_chunk
  refine Post.any fun _ => Post.any fun _ => ?_
  refine (Fill.ss_union_chunk_loop _ h).bind (fun s hs => ?_)
  refine (hs.2.decode_rest _).bind (fun u hu => ?_)
  refine (hu.2.decode_rest _).bind (fun v hv => Post.pure ?_)
  have h1 := hs.1
  have h2 := hu.1
  have h3 := hv.1
  simp only at h1
  exact hv.2.mono (by simp only; omega)

theorem Fill.ds_union_chunk {dbg : Bool} {m : Mem} {l r br base p : Nat} {x o : List Nat}
    (h : Fill k p o) : Post (MoreRes k p) (ds_union_chunk dbg m l r br base x o p) := by
  unfold Sliced.ds_union_chunk
  exact Post.any fun _ => h.operate_bitmaps.bind (fun x hx => Post.pure hx)

theorem Fill.union_chunks {dbg : Bool} {m : Mem} {it_l it_r : It} {base p : Nat} {s : UScratch}
    {o : List Nat} (h : Fill k p o) : Post (MoreRes k p) (union_chunks dbg m it_l it_r base s o p) := by
  have keep : ∀ u, More k p u → MoreRes k p ((fun (p : Nat × List Nat) => (p.1, s, p.2)) u) :=
    fun u hu => hu
  have big : ∀ u, MoreRes k p u → MoreRes k p
      ((fun (p : Nat × List Nat × List Nat) => (p.1, { s with x := p.2.1 }, p.2.2)) u) := fun u hu => hu
  have small : ∀ u, MoreRes k p u → MoreRes k p
      ((fun (p : Nat × List Nat × List Nat) => (p.1, { s with x4 := p.2.1 }, p.2.2)) u) := fun u hu => hu
  unfold Sliced.union_chunks
  refine Post.any fun _ => Post.any fun _ => ?_
  refine Post.ite (fun _ => ?_) (fun _ => ?_)
  · refine Post.any fun _ => Post.any fun _ => ?_
    exact Post.ite (fun _ => h.ss_union_chunk.map small) (fun _ => h.ss_union_chunk.map small)
  refine Post.ite (fun _ => Post.any fun _ => h.ds_union_chunk.map big) (fun _ => ?_)
  refine Post.ite (fun _ => h.decode_full_chunk.map keep) (fun _ => ?_)
  refine Post.ite (fun _ => Post.any fun _ => h.ds_union_chunk.map big) (fun _ => ?_)
  refine Post.ite (fun _ => h.operate_bitmaps.map keep) (fun _ => ?_)
  refine Post.ite (fun _ => h.decode_full_chunk.map keep) (fun _ => ?_)
  refine Post.ite (fun _ => h.decode_full_chunk.map keep) (fun _ => ?_)
  refine Post.ite (fun _ => h.decode_full_chunk.map keep) (fun _ => ?_)
  exact Post.ite (fun _ => h.decode_full_chunk.map keep) (fun _ => unreachable_post _)

theorem Fill.pairwise_union_loop {dbg : Bool} {m : Mem} (f : Nat) {it_l it_r : It} {s : UScratch}
    {p : Nat} {o : List Nat} (h : Fill k p o) :
    Post (fun u => UptoRes k p u.2.2) (pairwise_union_loop dbg m f it_l it_r s o p) := by
  induction f generalizing it_l it_r s o p with
  | zero => exact Post.error _
  | succ f ih =>
    have step : ∀ {n : Nat} {u : It × It × Nat × UScratch × List Nat}, UptoRes k (p + n) u.2.2 →
        UptoRes k p u.2.2 := fun hu => ⟨Nat.le_trans (Nat.le_add_right _ _) hu.1, hu.2⟩
    unfold Sliced.pairwise_union_loop
    refine Post.any fun _ => Post.any fun _ => ?_
    refine Post.ite (fun _ => ?_) (fun _ => ?_)
    · refine h.union_chunks.bind (fun u hu => ?_)
      refine Post.any fun _ => Post.any fun _ => ?_
      exact Post.ite (fun _ => Post.pure ⟨Nat.le_add_right _ _, hu⟩) (fun _ => (ih hu).mono (fun _ => step))
    refine Post.ite (fun _ => ?_) (fun _ => ?_)
    · refine h.decode_chunk.bind (fun u hu => Post.any fun _ => ?_)
      exact Post.ite (fun _ => Post.pure ⟨Nat.le_add_right _ _, hu⟩) (fun _ => (ih hu).mono (fun _ => step))
    · refine h.decode_chunk.bind (fun u hu => Post.any fun _ => ?_)
      exact Post.ite (fun _ => Post.pure ⟨Nat.le_add_right _ _, hu⟩) (fun _ => (ih hu).mono (fun _ => step))

theorem Fill.decode_tail {dbg : Bool} {m : Mem} (f : Nat) {it : It} {p : Nat} {o : List Nat}
    (h : Fill k p o) : Post (Upto k p) (decode_tail dbg m f it o p) := by
  induction f generalizing it o p with
  | zero => exact Post.error _
  | succ f ih =>
    unfold Sliced.decode_tail
    refine Post.ite (fun _ => ?_) (fun _ => Post.ok ⟨Nat.le_refl _, h⟩)
    exact h.decode_chunk.bind (fun u hu => Post.any fun _ => (ih hu).mono
      (fun y hy => ⟨Nat.le_trans (Nat.le_add_right _ _) hy.1, hy.2⟩))

theorem Fill.pairwise_union {dbg : Bool} {m : Mem} {l r : SSeq} {s : UScratch} {p : Nat} {o : List Nat}
    (h : Fill k p o) : Post (MoreRes k p) (pairwise_union dbg m l r s o p) := by
  unfold Sliced.pairwise_union
  refine (h.pairwise_union_loop _).bind (fun u hu => ?_)
  refine (hu.2.decode_tail _).bind (fun v hv => ?_)
  refine (hv.2.decode_tail _).bind (fun w hw => Post.pure ?_)
  have h1 := hu.1
  have h2 := hv.1
  have h3 := hw.1
  exact hw.2.mono (by simp only; omega)

/-! ## Many -/

theorem Fill.union_many_loop {dbg : Bool} {m : Mem} (f : Nat) {its : List It} {header : Nat}
    {s : MScratch} {p : Nat} {o : List Nat} (h : Fill k p o) :
    Post (UptoRes k p) (union_many_loop dbg m f its header s o p) := by
  induction f generalizing its header s o p with
  | zero => exact Post.error _
  | succ f ih =>
    unfold Sliced.union_many_loop
    refine Post.ite (fun _ => ?_) (fun _ => Post.ok ⟨Nat.le_refl _, h⟩)
    exact Post.any fun _ => h.decode_bitmap.bind (fun u hu => Post.any fun _ => (ih hu).mono
      (fun y hy => ⟨Nat.le_trans (Nat.le_add_right _ _) hy.1, hy.2⟩))

theorem Fill.union_many {dbg : Bool} {m : Mem} {qs : List SSeq} {s : MScratch} {p : Nat} {o : List Nat}
    (h : Fill k p o) : Post (MoreRes k p) (union_many dbg m qs s o p) := by
  unfold Sliced.union_many
  exact Post.any fun _ => (h.union_many_loop _).bind (fun u hu => Post.pure hu.more)

theorem Fill.intersect_headers {dbg : Bool} {m : Mem} (n : Nat) {i : Nat} {its : List It}
    {s : IScratch} {p : Nat} {o : List Nat} (h : Fill k p o) :
    Post (UptoRes k p) (intersect_headers dbg m n i its s o p) := by
  induction n generalizing i its s o p with
  | zero => exact Post.ok ⟨Nat.le_refl _, h⟩
  | succ n ih =>
    unfold Sliced.intersect_headers
    refine Post.any fun _ => Post.any fun _ => Post.any fun _ => Post.any fun _ => Post.any fun _ =>
      Post.any fun _ => Post.any fun _ => ?_
    refine Post.ite (fun _ => ih h) (fun _ => ?_)
    exact h.decode_bitmap.bind (fun u hu => (ih hu).mono
      (fun y hy => ⟨Nat.le_trans (Nat.le_add_right _ _) hy.1, hy.2⟩))

theorem Fill.intersection {dbg : Bool} {sort : (SSeq → Nat) → List SSeq → List SSeq} {m : Mem}
    {qs : List SSeq} {s : IScratch} {p : Nat} {o : List Nat} (h : Fill k p o) :
    Post (fun u => Fill k (p + u.1) u.2.2.2) (intersection dbg sort m qs s o p) := by
  unfold Sliced.intersection
  refine Post.any fun _ => ?_
  refine Post.bind (P := MoreRes k p) ?_ (fun u hu => Post.pure hu)
  unfold intersection_sorted
  refine Post.any fun _ => Post.any fun _ => Post.any fun _ => ?_
  exact (h.intersect_headers _).bind (fun u hu => Post.pure hu.more)

end Sliced
