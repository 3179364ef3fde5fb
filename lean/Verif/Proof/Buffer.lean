import Verif.Model.UnionMany
import Verif.Model.IntersectionMany
import Verif.Model.Union
/-!
# Two runs of an operation with different output buffers

All operations only store into their output buffer.  So if two buffers are related, and storing the
same value at corresponding places keeps them related, then whole runs keep them related.
-/
namespace Sliced

/-- Two runs end alike: both well, with results in relation `P`, or with the same error; if `L`, the
first may also be undefined. -/
def Sim {α β : Type} (L : Prop) (P : α → β → Prop) (x : Res α) (y : Res β) : Prop :=
  (∃ a b, x = .ok a ∧ y = .ok b ∧ P a b) ∨ (∃ e, x = .error e ∧ y = .error e) ∨ (L ∧ x = .error .ub)

/-- storing the same value, `d` slots further in the second buffer, keeps the relation -/
def Stores (L : Prop) (R : List Nat → List Nat → Prop) (d : Nat) : Prop :=
  ∀ a b i v, R a b → Sim L R (wr a i v) (wr b (i + d) v)

/-- a position and a buffer -/
def AtPos (R : List Nat → List Nat → Prop) (d : Nat) (x y : Nat × List Nat) : Prop :=
  y.1 = x.1 + d ∧ R x.2 y.2
/-- a number of values and a buffer -/
def AtNum (R : List Nat → List Nat → Prop) (x y : Nat × List Nat) : Prop := y.1 = x.1 ∧ R x.2 y.2
/-- a number of values, other results, and a buffer -/
def AtRes {σ : Type} (R : List Nat → List Nat → Prop) (x y : Nat × σ × List Nat) : Prop :=
  y.1 = x.1 ∧ y.2.1 = x.2.1 ∧ R x.2.2 y.2.2

section
variable {α β γ δ : Type} {L : Prop} {P : α → β → Prop} {Q : γ → δ → Prop}

theorem Sim.ok {a : α} {b : β} (h : P a b) : Sim L P (.ok a) (.ok b) := .inl ⟨a, b, rfl, rfl, h⟩
theorem Sim.pure {a : α} {b : β} (h : P a b) : Sim L P (Pure.pure a) (Pure.pure b) := Sim.ok h
theorem Sim.error (e : Err) : Sim L P (.error e) (.error e) := .inr (.inl ⟨e, rfl, rfl⟩)

theorem Sim.bind {x : Res α} {y : Res β} {f : α → Res γ} {g : β → Res δ} (h : Sim L P x y)
    (hf : ∀ a b, P a b → Sim L Q (f a) (g b)) : Sim L Q (x >>= f) (y >>= g) := by
  rcases h with ⟨a, b, rfl, rfl, h⟩ | ⟨e, rfl, rfl⟩ | ⟨hL, rfl⟩
  · exact hf a b h
  · exact .inr (.inl ⟨e, rfl, rfl⟩)
  · exact .inr (.inr ⟨hL, rfl⟩)

/-- a step that has nothing to do with the buffer -/
theorem Sim.same {x : Res α} {f : α → Res γ} {g : α → Res δ} (hf : ∀ a, Sim L Q (f a) (g a)) :
    Sim L Q (x >>= f) (x >>= g) := by
  cases x with
  | ok a => exact hf a
  | error e => exact .inr (.inl ⟨e, rfl, rfl⟩)

theorem Sim.map {x : Res α} {y : Res β} {f : α → γ} {g : β → δ} (h : Sim L P x y)
    (hf : ∀ a b, P a b → Q (f a) (g b)) : Sim L Q (f <$> x) (g <$> y) := by
  rcases h with ⟨a, b, rfl, rfl, h⟩ | ⟨e, rfl, rfl⟩ | ⟨hL, rfl⟩
  · exact .inl ⟨_, _, rfl, rfl, hf a b h⟩
  · exact .inr (.inl ⟨e, rfl, rfl⟩)
  · exact .inr (.inr ⟨hL, rfl⟩)

theorem Sim.ite {c : Prop} [Decidable c] {x x' : Res α} {y y' : Res β} (h1 : c → Sim L P x y)
    (h2 : ¬ c → Sim L P x' y') : Sim L P (if c then x else x') (if c then y else y') := by
  split
  · exact h1 ‹_›
  · exact h2 ‹_›

theorem unreachable_sim (dbg : Bool) : Sim L P (unreachable dbg) (unreachable dbg) := by
  unfold unreachable
  split <;> exact Sim.error _
end

variable {L : Prop} {R : List Nat → List Nat → Prop} {d : Nat}

section
variable (hR : Stores L R d)
include hR

theorem Stores.wr {a b : List Nat} {p q v : Nat} (h : R a b) (hq : q = p + d) :
    Sim L R (wr a p v) (wr b q v) := by
  subst hq
  exact hR a b p v h

theorem Stores.wrs {vs a b : List Nat} {p q : Nat} (h : R a b) (hq : q = p + d) :
    Sim L R (wrs a p vs) (wrs b q vs) := by
  induction vs generalizing a b p q with
  | nil => exact Sim.ok h
  | cons v vs ih =>
    unfold Sliced.wrs
    exact (hR.wr h hq).bind (fun a b h => ih h (by omega))

theorem Stores.scan_word (f : Nat) {w base p q : Nat} {a b : List Nat} (h : R a b) (hq : q = p + d) :
    Sim L (AtPos R d) (scan_word f w base a p) (scan_word f w base b q) := by
  induction f generalizing w a b p q with
  | zero => exact Sim.error _
  | succ f ih =>
    unfold Sliced.scan_word
    refine Sim.ite (fun _ => Sim.ok ⟨hq, h⟩) (fun _ => Sim.same fun r => ?_)
    exact (hR.wr h hq).bind (fun a b h => ih h (by omega))

theorem Stores.decode_bitmap_loop {W : Words} (n : Nat) {i base p q : Nat} {a b : List Nat} (h : R a b)
    (hq : q = p + d) :
    Sim L (AtPos R d) (decode_bitmap_loop W n i base a p) (decode_bitmap_loop W n i base b q) := by
  induction n generalizing i base a b p q with
  | zero => exact Sim.ok ⟨hq, h⟩
  | succ n ih =>
    unfold Sliced.decode_bitmap_loop
    exact Sim.same fun w => (hR.scan_word 65 h hq).bind (fun x y hxy => ih hxy.2 hxy.1)

theorem Stores.decode_bitmap {W : Words} {n base p q : Nat} {a b : List Nat} (h : R a b)
    (hq : q = p + d) : Sim L (AtNum R) (decode_bitmap W n base a p) (decode_bitmap W n base b q) := by
  unfold Sliced.decode_bitmap
  refine (hR.decode_bitmap_loop n h hq).bind (fun x y hxy => Sim.pure ⟨?_, hxy.2⟩)
  have := hxy.1
  simp only
  omega

theorem Stores.operate_loop {op : Nat → Nat → Nat} {l r : Words} (n : Nat) {i base p q : Nat}
    {a b : List Nat} (h : R a b) (hq : q = p + d) :
    Sim L (AtPos R d) (operate_loop op l r n i base a p) (operate_loop op l r n i base b q) := by
  induction n generalizing i base a b p q with
  | zero => exact Sim.ok ⟨hq, h⟩
  | succ n ih =>
    unfold Sliced.operate_loop
    exact Sim.same fun x => Sim.same fun y =>
      (hR.scan_word 65 h hq).bind (fun x y hxy => ih hxy.2 hxy.1)

theorem Stores.operate_bitmaps {op : Nat → Nat → Nat} {l r : Words} {n base p q : Nat}
    {a b : List Nat} (h : R a b) (hq : q = p + d) :
    Sim L (AtNum R) (operate_bitmaps op l r n base a p) (operate_bitmaps op l r n base b q) := by
  unfold Sliced.operate_bitmaps
  refine (hR.operate_loop n h hq).bind (fun x y hxy => Sim.pure ⟨?_, hxy.2⟩)
  have := hxy.1
  simp only
  omega

theorem Stores.decode_lane {m : Mem} {src base p q : Nat} {a b : List Nat} (h : R a b)
    (hq : q = p + d) : Sim L R (decode_lane m src base a p) (decode_lane m src base b q) := by
  unfold Sliced.decode_lane
  exact Sim.same fun v => hR.wrs h hq

theorem Stores.decode_sparse_block {m : Mem} {begin c base p q : Nat} {a b : List Nat} (h : R a b)
    (hq : q = p + d) :
    Sim L (AtNum R) (decode_sparse_block m begin c base a p) (decode_sparse_block m begin c base b q) := by
  unfold Sliced.decode_sparse_block
  refine (hR.decode_lane h (by omega)).bind (fun a b h => ?_)
  refine Sim.ite (fun _ => Sim.pure ⟨rfl, h⟩) (fun _ => ?_)
  refine (hR.decode_lane h (by omega)).bind (fun a b h => ?_)
  refine (hR.decode_lane h (by omega)).bind (fun a b h => ?_)
  refine (hR.decode_lane h (by omega)).bind (fun a b h => ?_)
  exact Sim.pure ⟨rfl, h⟩

theorem Stores.decode_sparse_chunk_loop {m : Mem} {base end_ : Nat} (f : Nat) {begin data p q : Nat}
    {a b : List Nat} (h : R a b) (hq : q = p + d) :
    Sim L (AtPos R d) (decode_sparse_chunk_loop m base end_ f begin data a p)
      (decode_sparse_chunk_loop m base end_ f begin data b q) := by
  induction f generalizing begin data a b p q with
  | zero => exact Sim.error _
  | succ f ih =>
    unfold Sliced.decode_sparse_chunk_loop
    refine Sim.ite (fun _ => Sim.ok ⟨hq, h⟩) (fun _ => ?_)
    refine Sim.same fun id => Sim.same fun c1 => ?_
    refine Sim.ite (fun _ => ?_) (fun _ => ?_)
    · exact (hR.decode_sparse_block h hq).bind (fun x y hxy => ih hxy.2 (by rw [hxy.1]; omega))
    · exact (hR.decode_bitmap h hq).bind (fun x y hxy => ih hxy.2 (by rw [hxy.1]; omega))

theorem Stores.decode_sparse_chunk {dbg : Bool} {m : Mem} {begin blocks base p q : Nat}
    {a b : List Nat} (h : R a b) (hq : q = p + d) :
    Sim L (AtNum R) (decode_sparse_chunk dbg m begin blocks base a p)
      (decode_sparse_chunk dbg m begin blocks base b q) := by
  unfold Sliced.decode_sparse_chunk
  refine Sim.same fun _ => (hR.decode_sparse_chunk_loop _ h hq).bind (fun x y hxy => Sim.pure ⟨?_, hxy.2⟩)
  have := hxy.1
  simp only
  omega

theorem Stores.decode_full_chunk {base p q : Nat} {a b : List Nat} (h : R a b) (hq : q = p + d) :
    Sim L (AtNum R) (decode_full_chunk base a p) (decode_full_chunk base b q) := by
  unfold Sliced.decode_full_chunk
  exact (hR.wrs h hq).bind (fun a b h => Sim.pure ⟨rfl, h⟩)

theorem Stores.decode_chunk {dbg : Bool} {m : Mem} {it : It} {p q : Nat} {a b : List Nat} (h : R a b)
    (hq : q = p + d) : Sim L (AtNum R) (decode_chunk dbg m it a p) (decode_chunk dbg m it b q) := by
  unfold Sliced.decode_chunk
  refine Sim.same fun i => Sim.same fun t => ?_
  refine Sim.ite (fun _ => Sim.same fun _ => hR.decode_sparse_chunk h hq) (fun _ => ?_)
  refine Sim.ite (fun _ => hR.decode_bitmap h hq) (fun _ => ?_)
  exact Sim.ite (fun _ => hR.decode_full_chunk h hq) (fun _ => unreachable_sim _)

theorem Stores.decode_loop {dbg : Bool} {m : Mem} (n : Nat) {it : It} {p q : Nat} {a b : List Nat}
    (h : R a b) (hq : q = p + d) :
    Sim L (AtPos R d) (decode_loop dbg m n it a p) (decode_loop dbg m n it b q) := by
  induction n generalizing it a b p q with
  | zero => exact Sim.ok ⟨hq, h⟩
  | succ n ih =>
    unfold Sliced.decode_loop
    exact (hR.decode_chunk h hq).bind (fun x y hxy => Sim.same fun it => ih hxy.2 (by rw [hxy.1]; omega))

theorem Stores.decode {dbg : Bool} {m : Mem} {s : SSeq} {p q : Nat} {a b : List Nat} (h : R a b)
    (hq : q = p + d) : Sim L (AtNum R) (s.decode dbg m a p) (s.decode dbg m b q) := by
  unfold SSeq.decode
  refine (hR.decode_loop _ h hq).bind (fun x y hxy => Sim.pure ⟨?_, hxy.2⟩)
  have := hxy.1
  simp only
  omega

/-! ## The intersection of two -/

theorem Stores.intersect_step {tab : Nat → List Nat} {v w : List Nat} {cv cw base size p q : Nat}
    {a b : List Nat} (h : R a b) (hq : q = p + d) :
    Sim L (AtNum R) (intersect_step tab v cv w cw base size a p)
      (intersect_step tab v cv w cw base size b q) := by
  unfold Sliced.intersect_step
  refine (hR.wrs h hq).bind (fun a b h => ?_)
  refine Sim.ite (fun _ => ?_) (fun _ => Sim.pure ⟨rfl, h⟩)
  exact (hR.wrs h (by omega)).bind (fun a b h => Sim.pure ⟨rfl, h⟩)

theorem Stores.scalar_loop {m : Mem} {end_l end_r base p q : Nat} (hq : q = p + d) (f : Nat)
    {l r size : Nat} {a b : List Nat} (h : R a b) :
    Sim L (AtNum R) (scalar_loop m end_l end_r base p f l r size a)
      (scalar_loop m end_l end_r base q f l r size b) := by
  induction f generalizing l r size a b with
  | zero => exact Sim.error _
  | succ f ih =>
    unfold Sliced.scalar_loop
    refine Sim.same fun o => ?_
    cases o with
    | none => exact Sim.pure ⟨rfl, h⟩
    | some l =>
      refine Sim.same fun o => ?_
      cases o with
      | none => exact Sim.pure ⟨rfl, h⟩
      | some r =>
        refine Sim.same fun x => Sim.same fun y => ?_
        refine Sim.ite (fun _ => ?_) (fun _ => ih h)
        refine (hR.wr h (by omega)).bind (fun a b h => ?_)
        refine Sim.ite (fun _ => Sim.pure ⟨rfl, h⟩) (fun _ => ?_)
        exact Sim.ite (fun _ => Sim.pure ⟨rfl, h⟩) (fun _ => ih h)

theorem Stores.ss_intersect_block {dbg : Bool} {tab : Nat → List Nat} {m : Mem} {l r cl cr base p q : Nat}
    {a b : List Nat} (h : R a b) (hq : q = p + d) :
    Sim L (AtNum R) (ss_intersect_block dbg tab m l r cl cr base a p)
      (ss_intersect_block dbg tab m l r cl cr base b q) := by
  unfold Sliced.ss_intersect_block
  refine Sim.same fun _ => Sim.same fun _ => ?_
  refine Sim.ite (fun _ => Sim.same fun _ => Sim.same fun _ => hR.intersect_step h hq) (fun _ => ?_)
  refine Sim.ite (fun _ => ?_) (fun _ => ?_)
  · refine Sim.same fun _ => Sim.same fun _ => (hR.intersect_step h hq).bind (fun x y hxy => ?_)
    refine Sim.same fun _ => ?_
    simp only [hxy.1]
    exact hR.intersect_step hxy.2 (by omega)
  refine Sim.ite (fun _ => ?_) (fun _ => hR.scalar_loop hq _ h)
  refine Sim.same fun _ => Sim.same fun _ => (hR.intersect_step h hq).bind (fun x y hxy => ?_)
  refine Sim.same fun _ => ?_
  simp only [hxy.1]
  exact hR.intersect_step hxy.2 (by omega)

theorem Stores.ds_intersect_block_loop {m : Mem} {l r base p q : Nat} (hq : q = p + d) (n : Nat)
    {i k : Nat} {a b : List Nat} (h : R a b) :
    Sim L (AtNum R) (ds_intersect_block_loop m l r base p n i k a)
      (ds_intersect_block_loop m l r base q n i k b) := by
  induction n generalizing i k a b with
  | zero => exact Sim.ok ⟨rfl, h⟩
  | succ n ih =>
    unfold Sliced.ds_intersect_block_loop
    exact Sim.same fun key => (hR.wr h (by omega)).bind (fun a b h => Sim.same fun _ => ih h)

theorem Stores.intersect_blocks {dbg : Bool} {tab : Nat → List Nat} {m : Mem} {dl dr cl cr base p q : Nat}
    {a b : List Nat} (h : R a b) (hq : q = p + d) :
    Sim L (AtNum R) (intersect_blocks dbg tab m dl dr cl cr base a p)
      (intersect_blocks dbg tab m dl dr cl cr base b q) := by
  unfold Sliced.intersect_blocks
  refine Sim.ite (fun _ => hR.ss_intersect_block h hq) (fun _ => ?_)
  refine Sim.ite (fun _ => hR.ds_intersect_block_loop hq _ h) (fun _ => ?_)
  refine Sim.ite (fun _ => hR.ds_intersect_block_loop hq _ h) (fun _ => ?_)
  exact Sim.ite (fun _ => hR.operate_bitmaps h hq) (fun _ => unreachable_sim _)

theorem Stores.ss_intersect_chunk_loop {dbg : Bool} {tab : Nat → List Nat} {m : Mem}
    {end_l end_r base : Nat} (f : Nat) {l dl r dr p q : Nat} {a b : List Nat} (h : R a b)
    (hq : q = p + d) :
    Sim L (AtPos R d) (ss_intersect_chunk_loop dbg tab m end_l end_r base f l dl r dr a p)
      (ss_intersect_chunk_loop dbg tab m end_l end_r base f l dl r dr b q) := by
  induction f generalizing l dl r dr a b p q with
  | zero => exact Sim.error _
  | succ f ih =>
    unfold Sliced.ss_intersect_chunk_loop
    refine Sim.same fun o => ?_
    cases o with
    | none => exact Sim.pure ⟨hq, h⟩
    | some x =>
      refine Sim.same fun o => ?_
      cases o with
      | none => exact Sim.pure ⟨hq, h⟩
      | some y =>
        refine Sim.same fun u => Sim.same fun v => ?_
        refine Sim.ite (fun _ => ?_) (fun _ => ih h hq)
        refine Sim.same fun _ => Sim.same fun _ => ?_
        refine (hR.intersect_blocks h hq).bind (fun x y hxy => ?_)
        simp only [hxy.1]
        exact Sim.ite (fun _ => Sim.pure ⟨by simp only; omega, hxy.2⟩) (fun _ => ih hxy.2 (by omega))

theorem Stores.ss_intersect_chunk {dbg : Bool} {tab : Nat → List Nat} {m : Mem} {l r bl br base p q : Nat}
    {a b : List Nat} (h : R a b) (hq : q = p + d) :
    Sim L (AtNum R) (ss_intersect_chunk dbg tab m l r bl br base a p)
      (ss_intersect_chunk dbg tab m l r bl br base b q) := by
  unfold Sliced.ss_intersect_chunk
  refine Sim.same fun _ => Sim.same fun _ =>
    (hR.ss_intersect_chunk_loop _ h hq).bind (fun x y hxy => Sim.pure ⟨?_, hxy.2⟩)
  have := hxy.1
  simp only
  omega

theorem Stores.ds_intersect_chunk {dbg : Bool} {m : Mem} {l r br base p q : Nat} {x a b : List Nat}
    (h : R a b) (hq : q = p + d) :
    Sim L (AtRes R) (ds_intersect_chunk dbg m l r br base x a p)
      (ds_intersect_chunk dbg m l r br base x b q) := by
  unfold Sliced.ds_intersect_chunk
  exact Sim.same fun _ => (hR.operate_bitmaps h hq).bind (fun x y hxy => Sim.pure ⟨hxy.1, rfl, hxy.2⟩)

theorem Stores.intersect_chunks {dbg : Bool} {tab : Nat → List Nat} {m : Mem} {it_l it_r : It}
    {base p q : Nat} {x a b : List Nat} (h : R a b) (hq : q = p + d) :
    Sim L (AtRes R) (intersect_chunks dbg tab m it_l it_r base x a p)
      (intersect_chunks dbg tab m it_l it_r base x b q) := by
  have keep : ∀ u v, AtNum R u v →
      AtRes R ((fun (p : Nat × List Nat) => (p.1, x, p.2)) u) ((fun (p : Nat × List Nat) => (p.1, x, p.2)) v) :=
    fun u v huv => ⟨huv.1, rfl, huv.2⟩
  unfold Sliced.intersect_chunks
  refine Sim.same fun _ => Sim.same fun _ => ?_
  refine Sim.ite (fun _ => ?_) (fun _ => ?_)
  · refine Sim.same fun _ => Sim.same fun _ => ?_
    exact Sim.ite (fun _ => (hR.ss_intersect_chunk h hq).map keep)
      (fun _ => (hR.ss_intersect_chunk h hq).map keep)
  refine Sim.ite (fun _ => Sim.same fun _ => hR.ds_intersect_chunk h hq) (fun _ => ?_)
  refine Sim.ite (fun _ => Sim.same fun _ => (hR.decode_sparse_chunk h hq).map keep) (fun _ => ?_)
  refine Sim.ite (fun _ => Sim.same fun _ => hR.ds_intersect_chunk h hq) (fun _ => ?_)
  refine Sim.ite (fun _ => (hR.operate_bitmaps h hq).map keep) (fun _ => ?_)
  refine Sim.ite (fun _ => (hR.decode_bitmap h hq).map keep) (fun _ => ?_)
  refine Sim.ite (fun _ => Sim.same fun _ => (hR.decode_sparse_chunk h hq).map keep) (fun _ => ?_)
  refine Sim.ite (fun _ => (hR.decode_bitmap h hq).map keep) (fun _ => ?_)
  exact Sim.ite (fun _ => (hR.decode_full_chunk h hq).map keep) (fun _ => unreachable_sim _)

/-- a position, other results, and a buffer -/
def AtEnd {σ : Type} (R : List Nat → List Nat → Prop) (d : Nat) (x y : Nat × σ × List Nat) : Prop :=
  y.1 = x.1 + d ∧ y.2.1 = x.2.1 ∧ R x.2.2 y.2.2

theorem Stores.pairwise_intersection_loop {dbg : Bool} {tab : Nat → List Nat} {m : Mem} (f : Nat)
    {it_l it_r : It} {p q : Nat} {x a b : List Nat} (h : R a b) (hq : q = p + d) :
    Sim L (AtEnd R d) (pairwise_intersection_loop dbg tab m f it_l it_r x a p)
      (pairwise_intersection_loop dbg tab m f it_l it_r x b q) := by
  induction f generalizing it_l it_r x a b p q with
  | zero => exact Sim.error _
  | succ f ih =>
    unfold Sliced.pairwise_intersection_loop
    refine Sim.ite (fun _ => ?_) (fun _ => Sim.ok ⟨hq, rfl, h⟩)
    refine Sim.same fun _ => Sim.same fun _ => ?_
    refine Sim.ite (fun _ => ?_) (fun _ => ?_)
    · refine (hR.intersect_chunks h hq).bind (fun u v huv => ?_)
      simp only [huv.1, huv.2.1]
      exact Sim.same fun _ => Sim.same fun _ => ih huv.2.2 (by omega)
    · exact Sim.ite (fun _ => Sim.same fun _ => ih h hq) (fun _ => Sim.same fun _ => ih h hq)

theorem Stores.pairwise_intersection {dbg : Bool} {tab : Nat → List Nat} {m : Mem} {l r : SSeq}
    {p q : Nat} {x a b : List Nat} (h : R a b) (hq : q = p + d) :
    Sim L (AtRes R) (pairwise_intersection dbg tab m l r x a p)
      (pairwise_intersection dbg tab m l r x b q) := by
  unfold Sliced.pairwise_intersection
  refine (hR.pairwise_intersection_loop _ h hq).bind (fun u v huv => Sim.pure ⟨?_, huv.2⟩)
  have := huv.1
  simp only
  omega

/-! ## The union of two -/

theorem Stores.ss_union_block_loop {m : Mem} {end_l end_r base p q : Nat} (hq : q = p + d) (f : Nat)
    {l r size : Nat} {a b : List Nat} (h : R a b) :
    Sim L (fun u v => v.1 = u.1 ∧ v.2.1 = u.2.1 ∧ v.2.2.1 = u.2.2.1 ∧ R u.2.2.2 v.2.2.2)
      (ss_union_block_loop m end_l end_r base p f l r size a)
      (ss_union_block_loop m end_l end_r base q f l r size b) := by
  induction f generalizing l r size a b with
  | zero => exact Sim.error _
  | succ f ih =>
    unfold Sliced.ss_union_block_loop
    refine Sim.same fun _ => Sim.same fun _ => ?_
    refine Sim.ite (fun _ => ?_) (fun _ => ?_)
    · refine (hR.wr h (by omega)).bind (fun a b h => ?_)
      exact Sim.ite (fun _ => Sim.pure ⟨rfl, rfl, rfl, h⟩) (fun _ => ih h)
    refine Sim.ite (fun _ => ?_) (fun _ => ?_)
    · refine (hR.wr h (by omega)).bind (fun a b h => ?_)
      exact Sim.ite (fun _ => Sim.pure ⟨rfl, rfl, rfl, h⟩) (fun _ => ih h)
    · refine (hR.wr h (by omega)).bind (fun a b h => ?_)
      exact Sim.ite (fun _ => Sim.pure ⟨rfl, rfl, rfl, h⟩) (fun _ => ih h)

theorem Stores.ss_union_block {dbg : Bool} {m : Mem} {l r cl cr base p q : Nat} {a b : List Nat}
    (h : R a b) (hq : q = p + d) :
    Sim L (AtNum R) (ss_union_block dbg m l r cl cr base a p)
      (ss_union_block dbg m l r cl cr base b q) := by
  unfold Sliced.ss_union_block
  refine Sim.same fun _ => Sim.same fun _ => ?_
  refine (hR.ss_union_block_loop hq _ h).bind (fun u v huv => ?_)
  obtain ⟨l', r', size, a⟩ := u
  obtain ⟨l₂, r₂, size₂, b⟩ := v
  obtain ⟨h1, h2, h3, h⟩ := huv
  simp only at h1 h2 h3 h
  subst h1 h2 h3
  simp only
  have fin : ∀ u v : Nat × List Nat, AtNum R u v → Sim L (AtNum R)
      (if r₂ ≠ l + cl then do
        let (n, buf) ← Sliced.decode_sparse_block m r₂ (r + cr - r₂) base u.2 (p + u.1)
        return (u.1 + n, buf)
      else return (u.1, u.2))
      (if r₂ ≠ l + cl then do
        let (n, buf) ← Sliced.decode_sparse_block m r₂ (r + cr - r₂) base v.2 (q + v.1)
        return (v.1 + n, buf)
      else return (v.1, v.2)) := by
    intro u v huv
    rw [huv.1]
    refine Sim.ite (fun _ => ?_) (fun _ => Sim.pure ⟨rfl, huv.2⟩)
    exact (hR.decode_sparse_block huv.2 (by omega)).bind
      (fun x y hxy => Sim.pure ⟨by simp only; rw [hxy.1], hxy.2⟩)
  by_cases hl : l₂ ≠ l + cl
  · rw [if_pos hl, if_pos hl]
    exact (hR.decode_sparse_block h (by omega)).bind
      (fun u v huv => fin (size₂ + u.1, u.2) (size₂ + v.1, v.2) ⟨by simp only; rw [huv.1], huv.2⟩)
  · rw [if_neg hl, if_neg hl]
    exact fin (size₂, a) (size₂, b) ⟨rfl, h⟩

theorem Stores.ds_union_block {m : Mem} {l r c base p q : Nat} {x a b : List Nat} (h : R a b)
    (hq : q = p + d) :
    Sim L (AtRes R) (ds_union_block m l r c base x a p) (ds_union_block m l r c base x b q) := by
  unfold Sliced.ds_union_block
  exact Sim.same fun _ => Sim.same fun _ =>
    (hR.operate_bitmaps h hq).bind (fun x y hxy => Sim.pure ⟨hxy.1, rfl, hxy.2⟩)

theorem Stores.decode_block {m : Mem} {data t c base p q : Nat} {a b : List Nat} (h : R a b)
    (hq : q = p + d) :
    Sim L (AtNum R) (decode_block m data t c base a p) (decode_block m data t c base b q) := by
  unfold Sliced.decode_block
  exact Sim.ite (fun _ => hR.decode_sparse_block h hq) (fun _ => hR.decode_bitmap h hq)

theorem Stores.decode_macro {m : Mem} {base ptr data p q : Nat} {a b : List Nat} (h : R a b)
    (hq : q = p + d) :
    Sim L (fun u v => v.1 = u.1 + d ∧ R u.2.1 v.2.1 ∧ v.2.2 = u.2.2)
      (decode_macro m base ptr data a p) (decode_macro m base ptr data b q) := by
  unfold Sliced.decode_macro
  refine Sim.same fun _ => Sim.same fun _ => (hR.decode_block h hq).bind (fun x y hxy => ?_)
  have := hxy.1
  exact Sim.pure ⟨by simp only; omega, hxy.2, rfl⟩

theorem Stores.union_blocks {dbg : Bool} {m : Mem} {dl dr cl cr base p q : Nat} {x a b : List Nat}
    (h : R a b) (hq : q = p + d) :
    Sim L (AtRes R) (union_blocks dbg m dl dr cl cr base x a p)
      (union_blocks dbg m dl dr cl cr base x b q) := by
  have keep : ∀ u v, AtNum R u v →
      AtRes R ((fun (p : Nat × List Nat) => (p.1, x, p.2)) u) ((fun (p : Nat × List Nat) => (p.1, x, p.2)) v) :=
    fun u v huv => ⟨huv.1, rfl, huv.2⟩
  unfold Sliced.union_blocks
  refine Sim.ite (fun _ => (hR.ss_union_block h hq).map keep) (fun _ => ?_)
  refine Sim.ite (fun _ => hR.ds_union_block h hq) (fun _ => ?_)
  refine Sim.ite (fun _ => hR.ds_union_block h hq) (fun _ => ?_)
  exact Sim.ite (fun _ => (hR.operate_bitmaps h hq).map keep) (fun _ => unreachable_sim _)

/-- the states of two runs of the loop over the blocks -/
def AtState (R : List Nat → List Nat → Prop) (d : Nat) (s t : UState) : Prop :=
  t.l = s.l ∧ t.data_l = s.data_l ∧ t.r = s.r ∧ t.data_r = s.data_r ∧ t.out = s.out + d ∧
    t.x4 = s.x4 ∧ R s.buf t.buf

theorem Stores.ss_union_chunk_loop {dbg : Bool} {m : Mem} {end_l end_r base : Nat} (f : Nat)
    {s t : UState} (h : AtState R d s t) :
    Sim L (AtState R d) (ss_union_chunk_loop dbg m end_l end_r base f s)
      (ss_union_chunk_loop dbg m end_l end_r base f t) := by
  induction f generalizing s t with
  | zero => exact Sim.error _
  | succ f ih =>
    obtain ⟨l, dl, r, dr, out, x4, buf⟩ := s
    obtain ⟨l₂, dl₂, r₂, dr₂, out₂, x4₂, buf₂⟩ := t
    obtain ⟨h1, h2, h3, h4, h5, h6, h⟩ := h
    simp only at h1 h2 h3 h4 h5 h6 h
    subst h1 h2 h3 h4 h6
    unfold Sliced.ss_union_chunk_loop
    refine Sim.same fun _ => Sim.same fun _ => ?_
    refine Sim.ite (fun _ => ?_) (fun _ => ?_)
    · refine (hR.decode_macro h h5).bind (fun u v huv => ?_)
      obtain ⟨o, u1, u2, u3⟩ := u
      obtain ⟨o', v1, v2, v3⟩ := v
      obtain ⟨h1, h2, h3⟩ := huv
      simp only [Prod.mk.injEq] at h1 h2 h3
      obtain ⟨rfl, rfl⟩ := h3
      have hst : AtState R d ⟨v3, v2, r₂, dr₂, o, x4₂, u1⟩ ⟨v3, v2, r₂, dr₂, o', x4₂, v1⟩ :=
        ⟨rfl, rfl, rfl, rfl, h1, rfl, h2⟩
      exact Sim.ite (fun _ => Sim.pure hst) (fun _ => ih hst)
    refine Sim.ite (fun _ => ?_) (fun _ => ?_)
    · refine (hR.decode_macro h h5).bind (fun u v huv => ?_)
      obtain ⟨o, u1, u2, u3⟩ := u
      obtain ⟨o', v1, v2, v3⟩ := v
      obtain ⟨h1, h2, h3⟩ := huv
      simp only [Prod.mk.injEq] at h1 h2 h3
      obtain ⟨rfl, rfl⟩ := h3
      have hst : AtState R d ⟨l₂, dl₂, v3, v2, o, x4₂, u1⟩ ⟨l₂, dl₂, v3, v2, o', x4₂, v1⟩ :=
        ⟨rfl, rfl, rfl, rfl, h1, rfl, h2⟩
      exact Sim.ite (fun _ => Sim.pure hst) (fun _ => ih hst)
    · refine Sim.same fun cl1 => Sim.same fun cr1 => (hR.union_blocks h h5).bind (fun u v huv => ?_)
      obtain ⟨o, u1, u2⟩ := u
      obtain ⟨o', v1, v2⟩ := v
      obtain ⟨h1, h2, h3⟩ := huv
      simp only at h1 h2 h3
      subst h1 h2
      have hst : AtState R d ⟨l₂ + 2, dl₂ + bytes_by_cardinality (cl1 + 1), r₂ + 2,
          dr₂ + bytes_by_cardinality (cr1 + 1), out + o', v1, u2⟩
          ⟨l₂ + 2, dl₂ + bytes_by_cardinality (cl1 + 1), r₂ + 2,
          dr₂ + bytes_by_cardinality (cr1 + 1), out₂ + o', v1, v2⟩ :=
        ⟨rfl, rfl, rfl, rfl, by simp only; omega, rfl, h3⟩
      exact Sim.ite (fun _ => Sim.pure hst) (fun _ => ih hst)

theorem Stores.decode_rest {m : Mem} {end_ base : Nat} (f : Nat) {ptr data p q : Nat} {a b : List Nat}
    (h : R a b) (hq : q = p + d) :
    Sim L (AtPos R d) (decode_rest m end_ base f ptr data a p) (decode_rest m end_ base f ptr data b q) := by
  induction f generalizing ptr data a b p q with
  | zero => exact Sim.error _
  | succ f ih =>
    unfold Sliced.decode_rest
    refine Sim.ite (fun _ => ?_) (fun _ => Sim.ok ⟨hq, h⟩)
    refine (hR.decode_macro h hq).bind (fun u v huv => ?_)
    obtain ⟨h1, h2, h3⟩ := huv
    simp only [h3]
    exact ih h2 h1

theorem Stores.ss_union_chunk {dbg : Bool} {m : Mem} {l r bl br base p q : Nat} {x a b : List Nat}
    (h : R a b) (hq : q = p + d) :
    Sim L (AtRes R) (ss_union_chunk dbg m l r bl br base x a p)
      (ss_union_chunk dbg m l r bl br base x b q) := by
  unfold Sliced.ss_union_chunk
  refine Sim.same fun _ => Sim.same fun _ => ?_
  have hst : AtState R d ⟨l, l + bl * 2, r, r + br * 2, p, x, a⟩ ⟨l, l + bl * 2, r, r + br * 2, q, x, b⟩ :=
    ⟨rfl, rfl, rfl, rfl, hq, rfl, h⟩
  refine (hR.ss_union_chunk_loop _ hst).bind (fun s t hst => ?_)
  obtain ⟨h1, h2, h3, h4, h5, h6, h⟩ := hst
  rw [h1, h2, h3, h4, h6]
  refine (hR.decode_rest _ h h5).bind (fun u v huv => ?_)
  refine (hR.decode_rest _ huv.2 huv.1).bind (fun u v huv => Sim.pure ⟨?_, rfl, huv.2⟩)
  have := huv.1
  simp only
  omega

theorem Stores.ds_union_chunk {dbg : Bool} {m : Mem} {l r br base p q : Nat} {x a b : List Nat}
    (h : R a b) (hq : q = p + d) :
    Sim L (AtRes R) (ds_union_chunk dbg m l r br base x a p) (ds_union_chunk dbg m l r br base x b q) := by
  unfold Sliced.ds_union_chunk
  exact Sim.same fun _ => (hR.operate_bitmaps h hq).bind (fun x y hxy => Sim.pure ⟨hxy.1, rfl, hxy.2⟩)

theorem Stores.union_chunks {dbg : Bool} {m : Mem} {it_l it_r : It} {base p q : Nat} {s : UScratch}
    {a b : List Nat} (h : R a b) (hq : q = p + d) :
    Sim L (AtRes R) (union_chunks dbg m it_l it_r base s a p)
      (union_chunks dbg m it_l it_r base s b q) := by
  have keep : ∀ u v, AtNum R u v →
      AtRes R ((fun (p : Nat × List Nat) => (p.1, s, p.2)) u) ((fun (p : Nat × List Nat) => (p.1, s, p.2)) v) :=
    fun u v huv => ⟨huv.1, rfl, huv.2⟩
  have big : ∀ u v, AtRes R u v →
      AtRes R ((fun (p : Nat × List Nat × List Nat) => (p.1, { s with x := p.2.1 }, p.2.2)) u)
        ((fun (p : Nat × List Nat × List Nat) => (p.1, { s with x := p.2.1 }, p.2.2)) v) :=
    fun u v huv => ⟨huv.1, by simp only; rw [huv.2.1], huv.2.2⟩
  have small : ∀ u v, AtRes R u v →
      AtRes R ((fun (p : Nat × List Nat × List Nat) => (p.1, { s with x4 := p.2.1 }, p.2.2)) u)
        ((fun (p : Nat × List Nat × List Nat) => (p.1, { s with x4 := p.2.1 }, p.2.2)) v) :=
    fun u v huv => ⟨huv.1, by simp only; rw [huv.2.1], huv.2.2⟩
  unfold Sliced.union_chunks
  refine Sim.same fun _ => Sim.same fun _ => ?_
  refine Sim.ite (fun _ => ?_) (fun _ => ?_)
  · refine Sim.same fun _ => Sim.same fun _ => ?_
    exact Sim.ite (fun _ => (hR.ss_union_chunk h hq).map small)
      (fun _ => (hR.ss_union_chunk h hq).map small)
  refine Sim.ite (fun _ => Sim.same fun _ => (hR.ds_union_chunk h hq).map big) (fun _ => ?_)
  refine Sim.ite (fun _ => (hR.decode_full_chunk h hq).map keep) (fun _ => ?_)
  refine Sim.ite (fun _ => Sim.same fun _ => (hR.ds_union_chunk h hq).map big) (fun _ => ?_)
  refine Sim.ite (fun _ => (hR.operate_bitmaps h hq).map keep) (fun _ => ?_)
  refine Sim.ite (fun _ => (hR.decode_full_chunk h hq).map keep) (fun _ => ?_)
  refine Sim.ite (fun _ => (hR.decode_full_chunk h hq).map keep) (fun _ => ?_)
  refine Sim.ite (fun _ => (hR.decode_full_chunk h hq).map keep) (fun _ => ?_)
  exact Sim.ite (fun _ => (hR.decode_full_chunk h hq).map keep) (fun _ => unreachable_sim _)

theorem Stores.pairwise_union_loop {dbg : Bool} {m : Mem} (f : Nat) {it_l it_r : It} {s : UScratch}
    {p q : Nat} {a b : List Nat} (h : R a b) (hq : q = p + d) :
    Sim L (fun u v => v.1 = u.1 ∧ v.2.1 = u.2.1 ∧ AtEnd R d u.2.2 v.2.2)
      (pairwise_union_loop dbg m f it_l it_r s a p) (pairwise_union_loop dbg m f it_l it_r s b q) := by
  induction f generalizing it_l it_r s a b p q with
  | zero => exact Sim.error _
  | succ f ih =>
    unfold Sliced.pairwise_union_loop
    refine Sim.same fun _ => Sim.same fun _ => ?_
    refine Sim.ite (fun _ => ?_) (fun _ => ?_)
    · refine (hR.union_chunks h hq).bind (fun u v huv => ?_)
      simp only [huv.1, huv.2.1]
      refine Sim.same fun _ => Sim.same fun _ => ?_
      exact Sim.ite (fun _ => Sim.pure ⟨rfl, rfl, by simp only; omega, rfl, huv.2.2⟩)
        (fun _ => ih huv.2.2 (by omega))
    refine Sim.ite (fun _ => ?_) (fun _ => ?_)
    · refine (hR.decode_chunk h hq).bind (fun u v huv => ?_)
      simp only [huv.1]
      refine Sim.same fun _ => ?_
      exact Sim.ite (fun _ => Sim.pure ⟨rfl, rfl, by simp only; omega, rfl, huv.2⟩)
        (fun _ => ih huv.2 (by omega))
    · refine (hR.decode_chunk h hq).bind (fun u v huv => ?_)
      simp only [huv.1]
      refine Sim.same fun _ => ?_
      exact Sim.ite (fun _ => Sim.pure ⟨rfl, rfl, by simp only; omega, rfl, huv.2⟩)
        (fun _ => ih huv.2 (by omega))

theorem Stores.decode_tail {dbg : Bool} {m : Mem} (f : Nat) {it : It} {p q : Nat} {a b : List Nat}
    (h : R a b) (hq : q = p + d) :
    Sim L (AtPos R d) (decode_tail dbg m f it a p) (decode_tail dbg m f it b q) := by
  induction f generalizing it a b p q with
  | zero => exact Sim.error _
  | succ f ih =>
    unfold Sliced.decode_tail
    refine Sim.ite (fun _ => ?_) (fun _ => Sim.ok ⟨hq, h⟩)
    refine (hR.decode_chunk h hq).bind (fun u v huv => ?_)
    simp only [huv.1]
    exact Sim.same fun _ => ih huv.2 (by omega)

theorem Stores.pairwise_union {dbg : Bool} {m : Mem} {l r : SSeq} {s : UScratch} {p q : Nat}
    {a b : List Nat} (h : R a b) (hq : q = p + d) :
    Sim L (AtRes R) (pairwise_union dbg m l r s a p) (pairwise_union dbg m l r s b q) := by
  unfold Sliced.pairwise_union
  refine (hR.pairwise_union_loop _ h hq).bind (fun u v huv => ?_)
  obtain ⟨h1, h2, h3, h4, h5⟩ := huv
  simp only [h1, h2, h4]
  refine (hR.decode_tail _ h5 h3).bind (fun u v huv => ?_)
  refine (hR.decode_tail _ huv.2 huv.1).bind (fun u v huv => Sim.pure ⟨?_, rfl, huv.2⟩)
  have := huv.1
  simp only
  omega

/-! ## Many -/

theorem Stores.union_many_loop {dbg : Bool} {m : Mem} (f : Nat) {its : List It} {header : Nat}
    {s : MScratch} {p q : Nat} {a b : List Nat} (h : R a b) (hq : q = p + d) :
    Sim L (AtEnd R d) (union_many_loop dbg m f its header s a p)
      (union_many_loop dbg m f its header s b q) := by
  induction f generalizing its header s a b p q with
  | zero => exact Sim.error _
  | succ f ih =>
    unfold Sliced.union_many_loop
    refine Sim.ite (fun _ => ?_) (fun _ => Sim.ok ⟨hq, rfl, h⟩)
    refine Sim.same fun _ => (hR.decode_bitmap h hq).bind (fun u v huv => ?_)
    simp only [huv.1]
    exact Sim.same fun _ => ih huv.2 (by omega)

theorem Stores.union_many {dbg : Bool} {m : Mem} {seqs : List SSeq} {s : MScratch} {p q : Nat}
    {a b : List Nat} (h : R a b) (hq : q = p + d) :
    Sim L (AtRes R) (union_many dbg m seqs s a p) (union_many dbg m seqs s b q) := by
  unfold Sliced.union_many
  refine Sim.same fun _ => (hR.union_many_loop _ h hq).bind (fun u v huv => Sim.pure ⟨?_, huv.2⟩)
  have := huv.1
  simp only
  omega

theorem Stores.intersect_headers {dbg : Bool} {m : Mem} (n : Nat) {i : Nat} {its : List It}
    {s : IScratch} {p q : Nat} {a b : List Nat} (h : R a b) (hq : q = p + d) :
    Sim L (AtEnd R d) (intersect_headers dbg m n i its s a p)
      (intersect_headers dbg m n i its s b q) := by
  induction n generalizing i its s a b p q with
  | zero => exact Sim.ok ⟨hq, rfl, h⟩
  | succ n ih =>
    unfold Sliced.intersect_headers
    refine Sim.same fun _ => Sim.same fun _ => Sim.same fun _ => Sim.same fun _ => Sim.same fun _ =>
      Sim.same fun _ => Sim.same fun _ => ?_
    refine Sim.ite (fun _ => ih h hq) (fun _ => ?_)
    refine (hR.decode_bitmap h hq).bind (fun u v huv => ?_)
    simp only [huv.1]
    exact ih huv.2 (by omega)

theorem Stores.intersection {dbg : Bool} {sort : (SSeq → Nat) → List SSeq → List SSeq} {m : Mem}
    {seqs : List SSeq} {s : IScratch} {p q : Nat} {a b : List Nat} (h : R a b) (hq : q = p + d) :
    Sim L (fun u v => v.1 = u.1 ∧ v.2.1 = u.2.1 ∧ v.2.2.1 = u.2.2.1 ∧ R u.2.2.2 v.2.2.2)
      (intersection dbg sort m seqs s a p) (intersection dbg sort m seqs s b q) := by
  unfold Sliced.intersection
  refine Sim.same fun _ => ?_
  refine Sim.bind (P := AtRes R) ?_ (fun u v huv => Sim.pure ⟨huv.1, rfl, huv.2⟩)
  unfold intersection_sorted
  refine Sim.same fun _ => Sim.same fun _ => Sim.same fun _ => ?_
  refine (hR.intersect_headers _ h hq).bind (fun u v huv => Sim.pure ⟨?_, huv.2⟩)
  have := huv.1
  simp only
  omega

end

end Sliced
