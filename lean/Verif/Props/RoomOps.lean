import Verif.Proof.RoomUnion
import Verif.Props.TailOps
import Verif.Props.Room
import Verif.Props.Tools
/-!
# C69: exactly how large the output buffers of the pairwise operations must be

C24 says that 23 slots after the elements are enough for `pairwise_intersection` and `pairwise_union`.
Here: for each two lists, exactly which buffers are large enough; with a smaller one the operations are
undefined.  The programs src/intersect.cpp and src/union.cpp, whose buffer has one slot for each value
of the universe, are a case of it.
-/
namespace Sliced

/-- the elements of block `j` -/
def blockOf (xs : List Nat) (j : Nat) : List Nat := xs.filter (fun x => x / 256 == j)
/-- what the vector code of `decode_sparse_block` writes for `n` elements -/
def decodeRoom (n : Nat) : Nat := if n ≤ 8 then 8 else 32

/-- In slice `i` of `xs`, if it is stored as blocks, each block of fewer than 31 elements can be decoded
to a buffer of `cap` slots at the place that its values have in a result `Z` beginning at slot `o`. -/
def SliceRoom (xs Z : List Nat) (i o cap : Nat) : Prop :=
  ∀ b, b < 256 → 1 ≤ blockCard xs (256 * i + b) → blockCard xs (256 * i + b) < 31 →
    o + under Z (256 * (256 * i + b)) + decodeRoom (blockCard xs (256 * i + b)) ≤ cap

/-- The intersection `Z` of two lists can be written to a buffer of `cap` slots, from slot `o` on.
`blkNeed` is the number of slots written for two blocks: 8 or 16 for each 16 elements of the longer list
of bytes, and one more slot than the elements, other than the last one of the list, that are common
to a list of bytes and a bitmap. -/
def InterRoom (xs ys Z : List Nat) (o cap : Nat) : Prop :=
  o + Z.length ≤ cap ∧ ∀ i, i < 65535 →
    (sparseSlice xs i = true → sparseSlice ys i = true → ∀ b, b < 256 →
      1 ≤ blockCard xs (256 * i + b) → 1 ≤ blockCard ys (256 * i + b) →
      o + under Z (256 * (256 * i + b))
        + blkNeed (blockOf xs (256 * i + b)) (blockOf ys (256 * i + b)) ≤ cap) ∧
    (sparseSlice xs i = true → sliceCard ys i = 65536 → SliceRoom xs Z i o cap) ∧
    (sliceCard xs i = 65536 → sparseSlice ys i = true → SliceRoom ys Z i o cap)

/-- The union `Z` of a slice that both lists store as blocks, `xs` being the first.  A block that only
one of them has is decoded.  Of two blocks of fewer than 31 elements the elements above all those of the
other are decoded to their place at the end of the block; of the second list also if there are none. -/
def MergeRoom (xs ys Z : List Nat) (i o cap : Nat) : Prop :=
  ∀ b, b < 256 →
    (1 ≤ blockCard xs (256 * i + b) → blockCard xs (256 * i + b) < 31 → blockCard ys (256 * i + b) = 0 →
      o + under Z (256 * (256 * i + b)) + decodeRoom (blockCard xs (256 * i + b)) ≤ cap) ∧
    (1 ≤ blockCard ys (256 * i + b) → blockCard ys (256 * i + b) < 31 → blockCard xs (256 * i + b) = 0 →
      o + under Z (256 * (256 * i + b)) + decodeRoom (blockCard ys (256 * i + b)) ≤ cap) ∧
    (1 ≤ blockCard xs (256 * i + b) → blockCard xs (256 * i + b) < 31 →
      1 ≤ blockCard ys (256 * i + b) → blockCard ys (256 * i + b) < 31 →
      (restCard xs ys (256 * i + b) ≠ 0 →
        o + under Z (256 * (256 * i + b + 1)) + decodeRoom (restCard xs ys (256 * i + b))
          ≤ cap + restCard xs ys (256 * i + b)) ∧
      o + under Z (256 * (256 * i + b + 1)) + decodeRoom (restCard ys xs (256 * i + b))
        ≤ cap + restCard ys xs (256 * i + b))

/-- The union `Z` of two lists can be written to a buffer of `cap` slots, from slot `o` on.  A slice
that only one of them has is decoded.  In a slice that both store as blocks the list with fewer blocks
is the first; if they have equally many it is `ys`. -/
def UnionRoom (xs ys Z : List Nat) (o cap : Nat) : Prop :=
  o + Z.length ≤ cap ∧ ∀ i, i < 65535 →
    (sparseSlice xs i = true → sliceCard ys i = 0 → SliceRoom xs Z i o cap) ∧
    (sparseSlice ys i = true → sliceCard xs i = 0 → SliceRoom ys Z i o cap) ∧
    (sparseSlice xs i = true → sliceCard xs i ≠ 0 → sparseSlice ys i = true → sliceCard ys i ≠ 0 →
      if sliceBlocks xs i < sliceBlocks ys i then MergeRoom xs ys Z i o cap
      else MergeRoom ys xs Z i o cap)

/-! ## From the representation to the specification -/

section
variable {xs ys Z : List Nat} {o cap i : Nat}

theorem chunkVals_inter (hx : xs.Pairwise (· < ·)) (i : Nat) :
    chunkVals (inter xs ys) i = inter (chunkVals xs i) (chunkVals ys i) := by
  refine sorted_ext (chunkVals_sorted (inter_sorted hx) i) (inter_sorted (chunkVals_sorted hx i)) ?_
  intro v
  rw [mem_inter, mem_chunkVals, mem_chunkVals, mem_chunkVals, mem_inter]
  exact ⟨fun h => ⟨⟨h.1, h.2.1⟩, h.1, h.2.2⟩, fun h => ⟨h.1.1, h.1.2, h.2.2⟩⟩

theorem chunkVals_uni (hx : xs.Pairwise (· < ·)) (hy : ys.Pairwise (· < ·)) (i : Nat) :
    chunkVals (uni xs ys) i = uni (chunkVals xs i) (chunkVals ys i) := by
  refine sorted_ext (chunkVals_sorted (uni_sorted hx hy) i)
    (uni_sorted (chunkVals_sorted hx i) (chunkVals_sorted hy i)) ?_
  intro v
  rw [mem_uni, mem_chunkVals, mem_chunkVals, mem_chunkVals, mem_uni]
  exact ⟨fun h => h.2.imp (⟨h.1, ·⟩) (⟨h.1, ·⟩),
    fun h => h.elim (fun h => ⟨h.1, Or.inl h.2⟩) (fun h => ⟨h.1, Or.inr h.2⟩)⟩

theorem under_block (Z : List Nat) (i : Nat) {b : Nat} (hb : b < 256) :
    under Z (65536 * i) + under (chunkVals Z i) (256 * b) = under Z (256 * (256 * i + b)) :=
  (before_block Z i b hb).symm

theorem under_slice (Z : List Nat) (i : Nat) :
    under Z (65536 * i) + (chunkVals Z i).length ≤ Z.length := by
  rw [chunkVals_length]
  unfold under sliceCard
  refine filter_two_le Z ?_
  intro x h1 h2
  simp at h1 h2
  omega

theorem under_le (Z : List Nat) (v : Nat) : under Z v ≤ Z.length := List.length_filter_le _ _

theorem inter_map {f : Nat → Nat} {A B : List Nat} (hf : ∀ x ∈ A, ∀ y ∈ B, f x = f y → x = y) :
    inter (A.map f) (B.map f) = (inter A B).map f := by
  unfold inter
  rw [List.filter_map]
  congr 1
  apply List.filter_congr
  intro x hx
  rw [Bool.eq_iff_iff]
  simp only [Function.comp, decide_eq_true_eq, List.mem_map]
  constructor
  · rintro ⟨y, hy, e⟩
    rw [hf x hx y hy e.symm]; exact hy
  · exact fun h => ⟨x, h, rfl⟩

theorem blkNeed_map {f : Nat → Nat} {A B : List Nat} (hf : ∀ x ∈ A, ∀ y ∈ B, f x = f y → x = y) :
    blkNeed (A.map f) (B.map f) = blkNeed A B := by
  have hf' : ∀ x ∈ B, ∀ y ∈ A, f x = f y → x = y := fun x hx y hy e => (hf y hy x hx e.symm).symm
  have i1 : ∀ {C : List Nat}, (∀ x ∈ C, x ∈ A) → (inter (C.map f) (B.map f)).length = (inter C B).length :=
    fun h => by rw [inter_map (fun x hx => hf x (h x hx)), List.length_map]
  have i2 : ∀ {C : List Nat}, (∀ x ∈ C, x ∈ B) → (inter (C.map f) (A.map f)).length = (inter C A).length :=
    fun h => by rw [inter_map (fun x hx => hf' x (h x hx)), List.length_map]
  unfold blkNeed
  simp only [List.length_map, ← List.map_take, ← List.map_drop, ← List.map_dropLast]
  rw [i1 (fun _ h => h), i1 (fun _ h => List.mem_of_mem_take h), i1 (fun _ h => List.mem_of_mem_drop h),
    i1 (fun _ h => (List.dropLast_sublist _).subset h), i2 (fun _ h => List.mem_of_mem_take h),
    i2 (fun _ h => List.mem_of_mem_drop h), i2 (fun _ h => (List.dropLast_sublist _).subset h)]

theorem blkNeed_block (xs ys : List Nat) (i : Nat) {b : Nat} (hb : b < 256) :
    blkNeed (blockVals (chunkVals xs i) b) (blockVals (chunkVals ys i) b)
      = blkNeed (blockOf xs (256 * i + b)) (blockOf ys (256 * i + b)) := by
  rw [blockVals_chunkVals_eq xs i hb, blockVals_chunkVals_eq ys i hb]
  refine blkNeed_map ?_
  intro x hx y hy e
  have h1 := (List.mem_filter.mp hx).2
  have h2 := (List.mem_filter.mp hy).2
  rw [beq_iff_eq] at h1 h2
  omega

/-- the blocks of a slice that is decoded -/
theorem sliceRoom_iff (hx : xs.Pairwise (· < ·)) (hsp : sparseSlice xs i = true)
    (hZ : chunkVals Z i = chunkVals xs i) (hfit : o + Z.length ≤ cap) :
    o + under Z (65536 * i) + blocksNeed (blocksTo (chunkVals xs i) 256) ≤ cap ↔
      SliceRoom xs Z i o cap := by
  have hu := under_le Z (65536 * i)
  have hs := under_slice Z i
  rw [blocksNeed_le _ 256 _ cap (by omega)]
  unfold SliceRoom
  refine forall_congr' (fun b => forall_congr' (fun hb => ?_))
  have e := under_block Z i hb
  rw [hZ] at e
  rw [blockVals_chunkVals xs i hb]
  have e1 : (List.filter (fun x => decide (x < 256 * b)) (chunkVals xs i)).length
    = under (chunkVals xs i) (256 * b) := rfl
  rw [e1]
  unfold room decodeRoom
  constructor
  · intro h c1 c2
    have := h c1
    rw [if_pos c2] at this
    omega
  · intro h c1
    split
    · rename_i c2
      have := h c1 c2
      omega
    · have h2 : under (chunkVals xs i) (256 * b) + blockCard xs (256 * i + b)
          ≤ (chunkVals xs i).length := by
        rw [← blockVals_chunkVals xs i hb]
        unfold under blockVals
        rw [List.length_map]
        refine filter_two_le _ ?_
        intro x h1 h2
        simp at h1 h2
        omega
      rw [hZ] at hs
      omega

theorem interRoom_iff (hx : Valid xs) (hy : Valid ys) (hfit : o + (inter xs ys).length ≤ cap) :
    Pairs Chk.id (fun c d => BodyRoom cap (o + under (inter xs ys) (65536 * c.id)) c.body d.body)
      (chunksOf xs) (chunksOf ys) ↔ InterRoom xs ys (inter xs ys) o cap := by
  rw [pairs_chunksOf]
  have sX := fun i => chunkVals_sorted hx.2.1 i
  have sY := fun i => chunkVals_sorted hy.2.1 i
  have vX := fun i => bodyOf_vals (sX i) (vs := chunkVals xs i) chunkVals_lt
  have vY := fun i => bodyOf_vals (sY i) (vs := chunkVals ys i) chunkVals_lt
  have big : ∀ i, o + under (inter xs ys) (65536 * i)
      + (inter (bodyOf (chunkVals xs i)).vals (bodyOf (chunkVals ys i)).vals).length ≤ cap := by
    intro i
    rw [vX, vY, ← chunkVals_inter hx.2.1]
    have := under_slice (inter xs ys) i
    omega
  have full : ∀ {zs : List Nat}, Valid zs → ∀ i, bodyOf (chunkVals zs i) = .full →
      ∀ v, v ∈ chunkVals zs i ↔ v < 65536 := by
    intro zs hz i h v
    have := bodyOf_vals (chunkVals_sorted hz.2.1 i) (vs := chunkVals zs i) chunkVals_lt
    rw [h] at this
    rw [← this]
    exact List.mem_range
  have body : ∀ i, i < 65535 → (BodyRoom cap (o + under (inter xs ys) (65536 * i))
      (bodyOf (chunkVals xs i)) (bodyOf (chunkVals ys i)) ↔
      (sparseSlice xs i = true → sparseSlice ys i = true → ∀ b, b < 256 →
        1 ≤ blockCard xs (256 * i + b) → 1 ≤ blockCard ys (256 * i + b) →
        o + under (inter xs ys) (256 * (256 * i + b))
          + blkNeed (blockOf xs (256 * i + b)) (blockOf ys (256 * i + b)) ≤ cap) ∧
      (sparseSlice xs i = true → sliceCard ys i = 65536 → SliceRoom xs (inter xs ys) i o cap) ∧
      (sliceCard xs i = 65536 → sparseSlice ys i = true → SliceRoom ys (inter xs ys) i o cap)) := by
    intro i hi
    have hbig := big i
    rcases body_cases xs i with ⟨x1, x2, x3⟩ | ⟨x1, x2, x3⟩ | ⟨x1, x2, x3⟩ <;>
      rcases body_cases ys i with ⟨y1, y2, y3⟩ | ⟨y1, y2, y3⟩ | ⟨y1, y2, y3⟩ <;>
      rw [x3, y3] at hbig ⊢
    · show Pairs Blk.id _ _ _ ↔ _
      rw [pairs_blocksTo, blkElems_blocksTo (sX i) chunkVals_lt, blkElems_blocksTo (sY i) chunkVals_lt,
        ← chunkVals_inter hx.2.1]
      constructor
      · intro h
        refine ⟨fun _ _ k hk c1 c2 => ?_, fun _ h => absurd h y2, fun h => absurd h x2⟩
        have := h k hk ((blockVals_ne_iff hk).mpr c1) ((blockVals_ne_iff hk).mpr c2)
        simp only [blkNeed_block _ _ i hk] at this
        rw [← under_block _ i hk]
        omega
      · rintro ⟨h, -, -⟩ k hk c1 c2
        rw [blockVals_ne_iff hk] at c1 c2
        simp only [blkNeed_block _ _ i hk]
        have := h x1 y1 k hk c1 c2
        rw [← under_block _ i hk] at this
        omega
    · show _ + blocksNeed _ ≤ _ ↔ _
      rw [sliceRoom_iff hx.2.1 x1 ?_ hfit]
      · exact ⟨fun h => ⟨fun _ h' => absurd h' (by rw [y1]; simp), fun _ _ => h, fun h => absurd h x2⟩,
          fun h => h.2.1 x1 y2⟩
      · rw [chunkVals_inter hx.2.1]
        refine sorted_ext (inter_sorted (sX i)) (sX i) ?_
        intro v
        rw [mem_inter, full hy i y3]
        exact ⟨fun h => h.1, fun h => ⟨h, chunkVals_lt v h⟩⟩
    · exact ⟨fun _ => ⟨fun _ h' => absurd h' (by rw [y1]; simp), fun _ h => absurd h y2,
        fun h => absurd h x2⟩, fun _ => hbig⟩
    · show _ + blocksNeed _ ≤ _ ↔ _
      rw [sliceRoom_iff hy.2.1 y1 ?_ hfit]
      · exact ⟨fun h => ⟨fun h' => absurd h' (by rw [x1]; simp), fun h' => absurd h' (by rw [x1]; simp),
          fun _ _ => h⟩, fun h => h.2.2 x2 y1⟩
      · rw [chunkVals_inter hx.2.1]
        refine sorted_ext (inter_sorted (sX i)) (sY i) ?_
        intro v
        rw [mem_inter, full hx i x3]
        exact ⟨fun h => h.2, fun h => ⟨chunkVals_lt v h, h⟩⟩
    · exact ⟨fun _ => ⟨fun h' => absurd h' (by rw [x1]; simp), fun h' => absurd h' (by rw [x1]; simp),
        fun _ h' => absurd h' (by rw [y1]; simp)⟩, fun _ => hbig⟩
    · exact ⟨fun _ => ⟨fun h' => absurd h' (by rw [x1]; simp), fun h' => absurd h' (by rw [x1]; simp),
        fun _ h' => absurd h' (by rw [y1]; simp)⟩, fun _ => hbig⟩
    · exact ⟨fun _ => ⟨fun h' => absurd h' (by rw [x1]; simp), fun h' => absurd h' (by rw [x1]; simp),
        fun h => absurd h x2⟩, fun _ => hbig⟩
    · exact ⟨fun _ => ⟨fun h' => absurd h' (by rw [x1]; simp), fun h' => absurd h' (by rw [x1]; simp),
        fun h => absurd h x2⟩, fun _ => hbig⟩
    · exact ⟨fun _ => ⟨fun h' => absurd h' (by rw [x1]; simp), fun h' => absurd h' (by rw [x1]; simp),
        fun h => absurd h x2⟩, fun _ => hbig⟩
  unfold InterRoom
  constructor
  · intro h
    refine ⟨hfit, fun i hi => ?_⟩
    by_cases hx' : chunkVals xs i = []
    · refine ⟨fun _ _ k hk c1 => absurd hx' (chunkVals_ne hk c1),
        fun _ _ k hk c1 => absurd hx' (chunkVals_ne hk c1), fun h => ?_⟩
      rw [← chunkVals_length, hx'] at h
      exact absurd h (by simp)
    · by_cases hy' : chunkVals ys i = []
      · refine ⟨fun _ _ k hk _ c1 => absurd hy' (chunkVals_ne hk c1), fun _ h => ?_,
          fun _ _ k hk c1 => absurd hy' (chunkVals_ne hk c1)⟩
        rw [← chunkVals_length, hy'] at h
        exact absurd h (by simp)
      · exact (body i hi).mp (h i hi hx' hy')
  · intro h i hi _ _
    exact (body i hi).mpr (h.2 i hi)

end

/-! ## Intersection -/

variable {dbg dbg₁ dbg₂ : Bool} {tab : Nat → List Nat} {xs ys Z : List Nat} {m : Mem} {l r : SSeq}
  {a b p q : Nat} {bx bY : List UInt8}

/-- C69: two encodings, with `p` and `q` readable bytes behind them and then a byte that cannot be
read.  `pairwise_intersection` into any buffer is right if the bytes of `InterTail` are there and the
slots of `InterRoom` are there, and undefined otherwise. -/
theorem C69_intersection (ht : TabOk tab) (hx : Valid xs) (hy : Valid ys)
    (hl : StoredAt dbg₁ xs p m a bx l) (hr : StoredAt dbg₂ ys q m b bY r)
    (endl : m (a + bx.length + p) = none) (endr : m (b + bY.length + q) = none)
    (hZ : Enumerates Z (fun v => v ∈ xs ∧ v ∈ ys)) (x : List Nat) (hs : x.length = 1024)
    (out : List Nat) (o : Nat) (ho : o ≤ out.length) :
    (InterTail xs ys p q ∧ InterRoom xs ys Z o out.length →
      ∃ x' out', pairwise_intersection dbg tab m l r x out o = .ok (Z.length, x', out') ∧
        x'.length = 1024 ∧ Wrote out o Z 23 out') ∧
    (¬ (InterTail xs ys p q ∧ InterRoom xs ys Z o out.length) →
      pairwise_intersection dbg tab m l r x out o = .error .ub) := by
  obtain rfl : Z = inter xs ys := hZ.unique (enumerates_inter hx)
  have fl := hl.fence endl
  have fr := hr.fence endr
  rw [(hl.places hx).1] at fl
  rw [(hr.places hy).1] at fr
  have t := pairwise_intersection_room (dbg := dbg) ht fl fr (hl.placed hx) (hr.placed hy) hs ho
  rw [seqElems_chunksOf hx, seqElems_chunksOf hy] at t
  have hiff : Pairs Chk.id (fun c d => BodyTail (a + encodedSize xs + p) (b + encodedSize ys + q)
        (chunkPos xs a c.id) (chunkPos ys b d.id) c.body d.body ∧
        BodyRoom out.length (o + under (inter xs ys) (65536 * c.id)) c.body d.body)
      (chunksOf xs) (chunksOf ys) ↔
      InterTail xs ys p q ∧ InterRoom xs ys (inter xs ys) o out.length := by
    constructor
    · intro h
      obtain ⟨⟨n, x', o'⟩, e1, -, h2, h3⟩ := t.1 h
      rw [pairs_and] at h
      exact ⟨interTail_iff.mp h.1, (interRoom_iff hx hy (h3.fits ho)).mp h.2⟩
    · intro h
      rw [pairs_and]
      exact ⟨interTail_iff.mpr h.1, (interRoom_iff hx hy h.2.1).mpr h.2⟩
  have t := t.congr hiff
  refine ⟨fun h => ?_, t.2⟩
  obtain ⟨⟨n, x', o'⟩, e1, rfl, h2, h3⟩ := t.1 h
  exact ⟨x', o', e1, h2, h3⟩

/-! ## Union -/

section
variable {xs ys : List Nat} {a b p q o cap : Nat}

/-- the slots that are written of the blocks of two lists -/
def UBlocksRoom (cap : Nat) (P Q O : Nat → Nat) (L R : List Blk) : Prop :=
  Merged Blk.id (fun a => O a.id + room a.vals.length ≤ cap) (fun b => O b.id + room b.vals.length ≤ cap)
    (fun a b => UBlkRoom cap (O a.id) (P a.id) (Q b.id) a b) L R

theorem rblocks_iff {El Er : Nat} {P Q O : Nat → Nat} {L R : List Blk} :
    RBlocks cap El Er P Q O L R ↔ UBlocks El Er P Q L R ∧ UBlocksRoom cap P Q O L R := merged_and

/-- the slots that are written for two chunks with the same id -/
def UBodyRoom (cap pos dl dr : Nat) : Body → Body → Prop
  | .sparse as, .sparse bs =>
    if as.length < bs.length then
      UBlocksRoom cap (blkPos (dl + 2 * as.length) as) (blkPos (dr + 2 * bs.length) bs)
        (fun k => pos + under (uni (blkElems as) (blkElems bs)) (256 * k)) as bs
    else
      UBlocksRoom cap (blkPos (dr + 2 * bs.length) bs) (blkPos (dl + 2 * as.length) as)
        (fun k => pos + under (uni (blkElems bs) (blkElems as)) (256 * k)) bs as
  | a, b => pos + (uni a.vals b.vals).length ≤ cap

theorem rbody_iff {pos El Er dl dr : Nat} (x y : Body) :
    RBody cap pos El Er dl dr x y ↔ UBody El Er dl dr x y ∧ UBodyRoom cap pos dl dr x y := by
  cases x <;> cases y
  case sparse.sparse as bs =>
    simp only [RBody, UBody, UBodyRoom]
    split <;> exact rblocks_iff
  all_goals exact ⟨fun h => ⟨trivial, h⟩, fun h => h.2⟩

/-- the slots that are written of the chunks of two lists -/
def UChunksRoom (cap : Nat) (P Q O : Nat → Nat) (L R : List Chk) : Prop :=
  Merged Chk.id (fun a => O a.id + a.body.need ≤ cap) (fun b => O b.id + b.body.need ≤ cap)
    (fun a b => UBodyRoom cap (O a.id) (P a.id) (Q b.id) a.body b.body) L R

theorem rchunks_iff {El Er : Nat} {P Q O : Nat → Nat} {L R : List Chk} :
    RChunks cap El Er P Q O L R ↔ UChunks El Er P Q L R ∧ UChunksRoom cap P Q O L R := by
  unfold RChunks UChunks UChunksRoom
  rw [← merged_and]
  unfold Merged Pairs
  simp only [rbody_iff]

theorem uni_length_ge (A B : List Nat) :
    A.length ≤ (uni A B).length ∧ B.length ≤ (uni A B).length := by
  induction A, B using uni.induct with
  | case1 B => rw [uni]; simp
  | case2 a A => rw [uni]; simp
  | case3 a A b B h ih => rw [uni, if_pos h]; simp only [List.length_cons] at *; omega
  | case4 a A b B h h2 ih => rw [uni, if_neg h, if_pos h2]; simp only [List.length_cons] at *; omega
  | case5 a A b B h h2 ih => rw [uni, if_neg h, if_neg h2]; simp only [List.length_cons] at *; omega

theorem under_next (Z : List Nat) (j : Nat) :
    under Z (256 * (j + 1)) = under Z (256 * j) + blockCard Z j := by
  unfold under blockCard
  refine filter_length_split (fun x _ => ?_)
  by_cases h1 : x < 256 * j
  · have h2 : x < 256 * (j + 1) := by omega
    have h3 : ¬ x / 256 = j := by omega
    simp [h1, h2, h3]
  · by_cases h3 : x / 256 = j
    · have h2 : x < 256 * (j + 1) := by omega
      simp [h1, h2, h3]
    · have h2 : ¬ x < 256 * (j + 1) := by omega
      simp [h1, h2, beq_eq_false_iff_ne.mpr h3]

theorem under_next_le (Z : List Nat) (j : Nat) : under Z (256 * j) + blockCard Z j ≤ Z.length := by
  rw [← under_next]; exact under_le _ _

theorem blockVals_uni {vs ws : List Nat} (hv : vs.Pairwise (· < ·)) (hw : ws.Pairwise (· < ·)) (j : Nat) :
    blockVals (uni vs ws) j = uni (blockVals vs j) (blockVals ws j) := by
  refine sorted_ext (blockVals_sorted (uni_sorted hv hw) j)
    (uni_sorted (blockVals_sorted hv j) (blockVals_sorted hw j)) ?_
  intro v
  rw [mem_uni, mem_blockVals, mem_blockVals, mem_blockVals, mem_uni]
  exact ⟨fun h => h.2.imp (⟨h.1, ·⟩) (⟨h.1, ·⟩),
    fun h => h.elim (fun h => ⟨h.1, Or.inl h.2⟩) (fun h => ⟨h.1, Or.inr h.2⟩)⟩

theorem uni_block (hx : Valid xs) (hy : Valid ys) (i : Nat) {k : Nat} (hk : k < 256) :
    (uni (blockVals (chunkVals xs i) k) (blockVals (chunkVals ys i) k)).length
      = blockCard (uni xs ys) (256 * i + k) := by
  rw [← blockVals_uni (chunkVals_sorted hx.2.1 i) (chunkVals_sorted hy.2.1 i),
    ← chunkVals_uni hx.2.1 hy.2.1, blockVals_chunkVals _ i hk]

theorem mergeRoom_iff (hx : Valid xs) (hy : Valid ys) (hfit : o + (uni xs ys).length ≤ cap)
    (hapart : a + encodedSize xs ≤ b ∨ b + encodedSize ys ≤ a) {i : Nat}
    (hi : i < 65535) (hsx : sparseSlice xs i = true) (hsy : sparseSlice ys i = true) :
    UBlocksRoom cap
      (blkPos (chunkPos xs a i + 2 * (blocksTo (chunkVals xs i) 256).length)
        (blocksTo (chunkVals xs i) 256))
      (blkPos (chunkPos ys b i + 2 * (blocksTo (chunkVals ys i) 256).length)
        (blocksTo (chunkVals ys i) 256))
      (fun k => o + under (uni xs ys) (65536 * i)
        + under (uni (blkElems (blocksTo (chunkVals xs i) 256)) (blkElems (blocksTo (chunkVals ys i) 256)))
          (256 * k))
      (blocksTo (chunkVals xs i) 256) (blocksTo (chunkVals ys i) 256) ↔
      MergeRoom xs ys (uni xs ys) i o cap := by
  rw [blkElems_blocksTo (chunkVals_sorted hx.2.1 i) chunkVals_lt,
    blkElems_blocksTo (chunkVals_sorted hy.2.1 i) chunkVals_lt, ← chunkVals_uni hx.2.1 hy.2.1]
  unfold UBlocksRoom MergeRoom
  rw [merged_blocksTo]
  refine forall_congr' (fun k => forall_congr' (fun hk => ?_))
  have nil : ∀ zs : List Nat, blockVals (chunkVals zs i) k = [] ↔ blockCard zs (256 * i + k) = 0 := by
    intro zs
    rw [← blockVals_chunkVals zs i hk, List.length_eq_zero_iff]
  have rn : restOf (blockVals (chunkVals xs i) k) (blockVals (chunkVals ys i) k) ≠ [] ↔
      restCard xs ys (256 * i + k) ≠ 0 := by
    rw [← restOf_blockVals xs ys i hk, Ne, Ne, List.length_eq_zero_iff]
  have r1 : restCard xs ys (256 * i + k) ≤ blockCard xs (256 * i + k) := by
    rw [← restOf_blockVals xs ys i hk, ← blockVals_chunkVals xs i hk]; exact restOf_length_le _ _
  have r2 : restCard ys xs (256 * i + k) ≤ blockCard ys (256 * i + k) := by
    rw [← restOf_blockVals ys xs i hk, ← blockVals_chunkVals ys i hk]; exact restOf_length_le _ _
  have hnext := under_next (uni xs ys) (256 * i + k)
  have hle := under_next_le (uni xs ys) (256 * i + k)
  have hsub : blockCard xs (256 * i + k) ≤ blockCard (uni xs ys) (256 * i + k) ∧
      blockCard ys (256 * i + k) ≤ blockCard (uni xs ys) (256 * i + k) := by
    rw [← uni_block hx hy i hk, ← blockVals_chunkVals xs i hk, ← blockVals_chunkVals ys i hk]
    exact uni_length_ge _ _
  simp only [UBlkRoom, UBytesRoom, blockVals_ne_iff hk, nil, blkPos_eq hi (Nat.le_of_lt hk),
    blockVals_chunkVals _ i hk, restOf_blockVals _ _ i hk, rn, uni_block hx hy i hk, Nat.add_assoc,
    under_block _ i hk]
  simp only [← Nat.add_assoc]
  generalize under (uni xs ys) (256 * (256 * i + k)) = u at *
  generalize under (uni xs ys) (256 * (256 * i + k + 1)) = u' at *
  generalize blockCard (uni xs ys) (256 * i + k) = c at *
  have one : ∀ n : Nat, n ≤ c → (o + u + room n ≤ cap ↔ (n < 31 → o + u + decodeRoom n ≤ cap)) := by
    intro n hn
    unfold room decodeRoom
    constructor
    · intro h h31
      rwa [if_pos h31] at h
    · intro h
      split
      · rename_i h31
        exact h h31
      · omega
  have d1 : ∀ n, n < 31 → room n = decodeRoom n := fun n h => by
    unfold room decodeRoom; rw [if_pos h]
  refine and_congr ?_ (and_congr ?_ ?_)
  · rw [one _ hsub.1]
    exact ⟨fun h c1 c2 c3 => h c1 c3 c2, fun h c1 c3 c2 => h c1 c2 c3⟩
  · rw [one _ hsub.2]
    exact ⟨fun h c1 c2 c3 => h c1 c3 c2, fun h c1 c3 c2 => h c1 c2 c3⟩
  · constructor
    · intro h c1 c2 c3 c4
      obtain ⟨x1, x2⟩ := blockStart_le hi hk hsx c1
      obtain ⟨y1, y2⟩ := blockStart_le hi hk hsy c3
      unfold blockData at x1 y1
      rw [if_pos c2] at x1
      rw [if_pos c4] at y1
      obtain ⟨-, g1, g2⟩ := (h c1 c3).2 c2 c4
      rw [d1 _ (by omega)] at g1 g2
      have := g2 (by omega)
      exact ⟨fun h => by have := g1 h; omega, by omega⟩
    · intro h c1 c3
      refine ⟨by omega, fun c2 c4 => ⟨by omega, ?_⟩⟩
      obtain ⟨g1, g2⟩ := h c1 c2 c3 c4
      rw [d1 _ (by omega), d1 _ (by omega)]
      exact ⟨fun h => by have := g1 h; omega, fun _ => by omega⟩

theorem need_slice {Z : List Nat} {i : Nat} (hx : Valid xs)
    (hZ : chunkVals Z i = chunkVals xs i) (hfit : o + Z.length ≤ cap) :
    o + under Z (65536 * i) + (bodyOf (chunkVals xs i)).need ≤ cap ↔
      (sparseSlice xs i = true → SliceRoom xs Z i o cap) := by
  cases hsp : sparseSlice xs i with
  | true =>
    rw [(bodyOf_sparse xs i).1 hsp]
    exact (sliceRoom_iff hx.2.1 hsp hZ hfit).trans ⟨fun h _ => h, fun h => h rfl⟩
  | false =>
    rw [need_of_not_sparse hx.2.1 hsp, ← hZ]
    have := under_slice Z i
    exact ⟨fun _ h => (nomatch h), fun _ => by omega⟩

theorem unionRoom_iff (hx : Valid xs) (hy : Valid ys) (hfit : o + (uni xs ys).length ≤ cap)
    (hapart : a + encodedSize xs ≤ b ∨ b + encodedSize ys ≤ a) :
    UChunksRoom cap (chunkPos xs a) (chunkPos ys b) (fun k => o + under (uni xs ys) (65536 * k))
      (chunksOf xs) (chunksOf ys) ↔ UnionRoom xs ys (uni xs ys) o cap := by
  have eall : UnionRoom xs ys (uni xs ys) o cap ↔ ∀ i, i < 65535 →
    (sparseSlice xs i = true → sliceCard ys i = 0 → SliceRoom xs (uni xs ys) i o cap) ∧
    (sparseSlice ys i = true → sliceCard xs i = 0 → SliceRoom ys (uni xs ys) i o cap) ∧
    (sparseSlice xs i = true → sliceCard xs i ≠ 0 → sparseSlice ys i = true → sliceCard ys i ≠ 0 →
      if sliceBlocks xs i < sliceBlocks ys i then MergeRoom xs ys (uni xs ys) i o cap
      else MergeRoom ys xs (uni xs ys) i o cap) := ⟨fun h => h.2, fun h => ⟨hfit, h⟩⟩
  rw [eall]
  unfold UChunksRoom
  rw [merged_chunksOf]
  refine forall_congr' (fun i => forall_congr' (fun hi => ?_))
  have sX := chunkVals_sorted hx.2.1 i
  have sY := chunkVals_sorted hy.2.1 i
  have hU := chunkVals_uni hx.2.1 hy.2.1 i
  have nil : ∀ zs : List Nat, chunkVals zs i = [] ↔ sliceCard zs i = 0 := by
    intro zs
    rw [← chunkVals_length, List.length_eq_zero_iff]
  have ne : ∀ zs Z : List Nat, sliceCard zs i = 0 → SliceRoom zs Z i o cap := by
    intro zs Z h
    rw [← nil] at h
    exact fun k hk c1 => absurd h (chunkVals_ne hk c1)
  refine and_congr ?_ (and_congr ?_ ?_)
  · constructor
    · intro h c1 c2
      by_cases h0 : sliceCard xs i = 0
      · exact ne xs _ h0
      · rw [← nil] at c2
        rw [c2, uni_nil] at hU
        exact (need_slice hx hU hfit).mp (h (by rw [Ne, nil]; exact h0) c2) c1
    · intro h c1 c2
      rw [c2, uni_nil] at hU
      exact (need_slice hx hU hfit).mpr (fun c3 => h c3 ((nil ys).mp c2))
  · constructor
    · intro h c1 c2
      by_cases h0 : sliceCard ys i = 0
      · exact ne ys _ h0
      · rw [← nil] at c2
        rw [c2, nil_uni] at hU
        exact (need_slice hy hU hfit).mp (h (by rw [Ne, nil]; exact h0) c2) c1
    · intro h c1 c2
      rw [c2, nil_uni] at hU
      exact (need_slice hy hU hfit).mpr (fun c3 => h c3 ((nil xs).mp c2))
  · have hnx : chunkVals xs i ≠ [] ↔ sliceCard xs i ≠ 0 := not_congr (nil xs)
    have hny : chunkVals ys i ≠ [] ↔ sliceCard ys i ≠ 0 := not_congr (nil ys)
    rw [hnx, hny]
    have hbig : o + under (uni xs ys) (65536 * i)
        + (uni (bodyOf (chunkVals xs i)).vals (bodyOf (chunkVals ys i)).vals).length ≤ cap := by
      rw [bodyOf_vals sX chunkVals_lt, bodyOf_vals sY chunkVals_lt, ← hU]
      have := under_slice (uni xs ys) i
      omega
    have m1 := mergeRoom_iff (cap := cap) hx hy hfit hapart hi
    have m2 := mergeRoom_iff (cap := cap) hy hx (o := o) (by rw [uni_comm hy.2.1 hx.2.1]; exact hfit)
      hapart.symm hi
    rw [uni_comm hy.2.1 hx.2.1] at m2
    simp only
    rcases body_cases xs i with ⟨x1, x2, x3⟩ | ⟨x1, x2, x3⟩ | ⟨x1, x2, x3⟩ <;>
      rcases body_cases ys i with ⟨y1, y2, y3⟩ | ⟨y1, y2, y3⟩ | ⟨y1, y2, y3⟩ <;>
      rw [x3, y3] at hbig ⊢
    · simp only [UBodyRoom]
      rw [m1 x1 y1, m2 y1 x1, sliceBlocks_eq, sliceBlocks_eq]
      exact ⟨fun h _ c1 _ c2 => h c1 c2, fun h c1 c2 => h x1 c1 y1 c2⟩
    all_goals
      refine ⟨fun _ g1 _ g2 _ => ?_, fun _ _ _ => hbig⟩
      first
        | exact absurd (x1.symm.trans g1) (by decide)
        | exact absurd (y1.symm.trans g2) (by decide)

end

/-- C69: the same for `pairwise_union` of two encodings that do not overlap. -/
theorem C69_union (hx : Valid xs) (hy : Valid ys)
    (hl : StoredAt dbg₁ xs p m a bx l) (hr : StoredAt dbg₂ ys q m b bY r)
    (hapart : a + bx.length ≤ b ∨ b + bY.length ≤ a)
    (endl : m (a + bx.length + p) = none) (endr : m (b + bY.length + q) = none)
    (hZ : Enumerates Z (fun v => v ∈ xs ∨ v ∈ ys)) (s : UScratch) (hs : s.Ok)
    (out : List Nat) (o : Nat) (ho : o ≤ out.length) :
    (UnionTail xs ys p q ∧ UnionRoom xs ys Z o out.length →
      ∃ s' out', pairwise_union dbg m l r s out o = .ok (Z.length, s', out') ∧
        s'.Ok ∧ Wrote out o Z 23 out') ∧
    (¬ (UnionTail xs ys p q ∧ UnionRoom xs ys Z o out.length) →
      pairwise_union dbg m l r s out o = .error .ub) := by
  obtain rfl : Z = uni xs ys := hZ.unique (enumerates_uni hx hy)
  have fl := hl.fence endl
  have fr := hr.fence endr
  have r1 := hl.region hx
  have r2 := hr.region hy
  rw [(hl.places hx).1] at fl hapart r1
  rw [(hr.places hy).1] at fr hapart r2
  have t := pairwise_union_room (dbg := dbg) fl fr (hl.placed hx) (hr.placed hy) hs (Or.inr (by omega))
    ho
  rw [seqElems_chunksOf hx, seqElems_chunksOf hy] at t
  have t := t.congr (T' := UnionTail xs ys p q ∧ UnionRoom xs ys (uni xs ys) o out.length) (by
    constructor
    · intro h
      obtain ⟨⟨n, x', o'⟩, e1, -, h2, h3⟩ := t.1 h
      rw [rchunks_iff] at h
      exact ⟨(unionTail_iff hapart).mp h.1, (unionRoom_iff hx hy (h3.fits ho) hapart).mp h.2⟩
    · intro h
      rw [rchunks_iff]
      exact ⟨(unionTail_iff hapart).mpr h.1, (unionRoom_iff hx hy h.2.1 hapart).mpr h.2⟩)
  refine ⟨fun h => ?_, t.2⟩
  obtain ⟨⟨n, s', o'⟩, e1, rfl, h2, h3⟩ := t.1 h
  exact ⟨s', o', e1, h2, h3⟩

/-- C69: the union of a sequence with itself needs a slot for each element and no more. -/
theorem C69_union_self (hx : Valid xs) (hl : StoredAt dbg₁ xs p m a bx l)
    (endl : m (a + bx.length + p) = none) (s : UScratch) (hs : s.Ok)
    (out : List Nat) (o : Nat) (ho : o ≤ out.length) :
    (o + xs.length ≤ out.length → ∃ s' out', pairwise_union dbg m l l s out o = .ok (xs.length, s', out') ∧
      s'.Ok ∧ Wrote out o xs 23 out') ∧
    (¬ o + xs.length ≤ out.length → pairwise_union dbg m l l s out o = .error .ub) := by
  have e : uni xs xs = xs := (enumerates_uni hx hx).unique ⟨hx.2.1, fun v => by simp⟩
  have fl := hl.fence endl
  rw [(hl.places hx).1] at fl
  have t := pairwise_union_room (dbg := dbg) fl fl (hl.placed hx) (hl.placed hx) hs (Or.inl ⟨rfl, rfl⟩) ho
  rw [seqElems_chunksOf hx, e] at t
  have t := t.congr (T' := o + xs.length ≤ out.length) (by
    constructor
    · intro h
      obtain ⟨⟨n, x', o'⟩, e1, -, h2, h3⟩ := t.1 h
      exact h3.fits ho
    · intro hfit
      unfold RChunks
      rw [merged_chunksOf]
      intro i hi
      refine ⟨fun h1 h2 => absurd h2 h1, fun h1 h2 => absurd h2 h1, fun _ _ => ?_⟩
      simp only
      have sX := chunkVals_sorted hx.2.1 i
      have hU := chunkVals_uni hx.2.1 hx.2.1 i
      rw [e] at hU
      have hsl := under_slice xs i
      have hbig : o + under xs (65536 * i)
          + (uni (bodyOf (chunkVals xs i)).vals (bodyOf (chunkVals xs i)).vals).length ≤ out.length := by
        rw [bodyOf_vals sX chunkVals_lt, ← hU]
        omega
      rcases body_cases xs i with ⟨x1, x2, x3⟩ | ⟨x1, x2, x3⟩ | ⟨x1, x2, x3⟩ <;> rw [x3] at hbig ⊢
      · simp only [RBody, Nat.lt_irrefl, if_false, RBlocks]
        rw [blkElems_blocksTo sX chunkVals_lt, ← hU, merged_blocksTo]
        intro k hk
        refine ⟨fun h1 h2 => absurd h2 h1, fun h1 h2 => absurd h2 h1, fun _ _ => ?_⟩
        have hb : o + under xs (65536 * i) + under (chunkVals xs i) (256 * k)
            + (uni (blockVals (chunkVals xs i) k) (blockVals (chunkVals xs i) k)).length ≤ out.length := by
          have h1 := under_block xs i hk
          have h2 := under_next_le xs (256 * i + k)
          rw [uni_block hx hx i hk, e]
          omega
        refine ⟨fun _ _ => ?_, hb, fun _ _ => ⟨hb, fun h => absurd (restOf_self _) h, fun h => absurd rfl h⟩⟩
        unfold UBytes
        rw [restOf_self]
        exact ⟨fun h => absurd rfl h, fun h => absurd rfl h⟩
      · exact hbig
      · exact hbig)
  refine ⟨fun h => ?_, t.2⟩
  obtain ⟨⟨n, s', o'⟩, e1, rfl, h2, h3⟩ := t.1 h
  exact ⟨s', o', e1, h2, h3⟩

/-! ## How many slots -/

theorem decodeRoom_le (n : Nat) : decodeRoom n ≤ n + 23 := by unfold decodeRoom; split <;> omega

theorem stepNeed_le (n : Nat) (h : n ≤ 16) : stepNeed n ≤ n + 8 := by unfold stepNeed; split <;> omega

theorem blkNeed_le {A B : List Nat} (sA : A.Pairwise (· < ·)) (sB : B.Pairwise (· < ·)) :
    blkNeed A B ≤ (inter A B).length + 8 := by
  have split : ∀ C D : List Nat, (inter C D).length
      = (inter (C.take 16) D).length + (inter (C.drop 16) D).length := by
    intro C D
    unfold inter
    rw [← List.length_append, ← List.filter_append, List.take_append_drop]
  have le : ∀ C D : List Nat, (inter C D).length ≤ C.length := fun C D => List.length_filter_le _ _
  have last : ∀ C D : List Nat, (inter C.dropLast D).length ≤ (inter C D).length := fun C D =>
    ((List.dropLast_sublist C).filter _).length_le
  have cm : (inter A B).length = (inter B A).length := by rw [inter_comm sA sB]
  have tk : ∀ C : List Nat, (C.take 16).length ≤ 16 := fun C => by rw [List.length_take]; omega
  have dp : ∀ C : List Nat, (C.drop 16).length = C.length - 16 := fun C => List.length_drop
  unfold blkNeed
  split
  · split
    · split
      · split
        · exact stepNeed_le _ (Nat.le_trans (le _ _) (by assumption))
        · have h0 := split B A
          have h1 := le (B.take 16) A
          have h2 := le (B.drop 16) A
          have h3 := tk B
          have h4 := dp B
          have h5 := stepNeed_le (inter (B.take 16) A).length (by omega)
          have h6 := stepNeed_le (inter (B.drop 16) A).length (by omega)
          omega
      · split
        · have h0 := split A B
          have h1 := le (A.take 16) B
          have h2 := le (A.drop 16) B
          have h3 := tk A
          have h4 := dp A
          have h5 := stepNeed_le (inter (A.take 16) B).length (by omega)
          have h6 := stepNeed_le (inter (A.drop 16) B).length (by omega)
          omega
        · omega
    · have := last A B; omega
  · split
    · have := last B A; omega
    · omega

theorem blockCard_mono {j : Nat} (hx : xs.Pairwise (· < ·)) (h : ∀ v ∈ xs, v / 256 = j → v ∈ Z) :
    blockCard xs j ≤ blockCard Z j := by
  unfold blockCard
  refine nodup_subset_length ((hx.filter _).imp (fun h => by omega)) ?_
  intro v hv
  obtain ⟨h1, h2⟩ := List.mem_filter.mp hv
  exact List.mem_filter.mpr ⟨h v h1 (beq_iff_eq.mp h2), h2⟩

theorem full_slice {i : Nat} (hx : Valid xs) (h : sliceCard xs i = 65536) {v : Nat} (hv : v / 65536 = i) :
    v ∈ xs := by
  rcases body_cases xs i with ⟨x1, x2, x3⟩ | ⟨x1, x2, x3⟩ | ⟨x1, x2, x3⟩
  · exact absurd h x2
  · have := bodyOf_vals (chunkVals_sorted hx.2.1 i) (vs := chunkVals xs i) chunkVals_lt
    rw [x3] at this
    have hm : v % 65536 ∈ chunkVals xs i := by
      rw [← this]; exact List.mem_range.mpr (by omega)
    have := (mem_chunkVals.mp hm).2
    rwa [show i * 65536 + v % 65536 = v by omega] at this
  · exact absurd h x2

theorem sliceRoom_23 {i o cap : Nat} (hx : Valid xs) (h : ∀ v ∈ xs, v / 65536 = i → v ∈ Z)
    (hcap : o + Z.length + 23 ≤ cap) : SliceRoom xs Z i o cap := by
  intro b hb _ _
  have h1 := blockCard_mono (j := 256 * i + b) hx.2.1 (fun v hv hj => h v hv (by omega))
  have h2 := under_next_le Z (256 * i + b)
  have h3 := decodeRoom_le (blockCard xs (256 * i + b))
  omega

/-- C69: 23 slots after the elements are always enough; 8 are for an intersection, if no slice is
stored as blocks by one list and full in the other. -/
theorem C69_23 (hx : Valid xs) (hy : Valid ys) {o cap : Nat} :
    (Enumerates Z (fun v => v ∈ xs ∧ v ∈ ys) →
      (o + Z.length + 23 ≤ cap → InterRoom xs ys Z o cap) ∧
      (o + Z.length + 8 ≤ cap → (∀ i, i < 65535 → ¬ (sparseSlice xs i = true ∧ sliceCard ys i = 65536) ∧
        ¬ (sliceCard xs i = 65536 ∧ sparseSlice ys i = true)) → InterRoom xs ys Z o cap)) ∧
    (Enumerates Z (fun v => v ∈ xs ∨ v ∈ ys) → o + Z.length + 23 ≤ cap → UnionRoom xs ys Z o cap) := by
  refine ⟨fun hZ => ?_, fun hZ hcap => ?_⟩
  · have blk : o + Z.length + 8 ≤ cap → ∀ j, o + under Z (256 * j)
        + blkNeed (blockOf xs j) (blockOf ys j) ≤ cap := by
      intro hcap j
      have h1 := blkNeed_le (A := blockOf xs j) (B := blockOf ys j) (hx.2.1.filter _) (hy.2.1.filter _)
      have h2 := under_next_le Z j
      have h3 : (inter (blockOf xs j) (blockOf ys j)).length ≤ blockCard Z j := by
        unfold blockCard
        refine nodup_subset_length ((inter_sorted (hx.2.1.filter _)).imp (fun h => by omega)) ?_
        intro v hv
        rw [mem_inter] at hv
        obtain ⟨g1, g2⟩ := List.mem_filter.mp hv.1
        exact List.mem_filter.mpr ⟨(hZ.2 v).mpr ⟨g1, (List.mem_filter.mp hv.2).1⟩, g2⟩
      omega
    refine ⟨fun hcap => ⟨by omega, fun i hi => ⟨fun _ _ b _ _ _ => blk (by omega) _, fun _ hf => ?_,
      fun hf _ => ?_⟩⟩, fun hcap hno => ⟨by omega, fun i hi => ⟨fun _ _ b _ _ _ => blk hcap _,
        fun h1 h2 => absurd ⟨h1, h2⟩ (hno i hi).1, fun h1 h2 => absurd ⟨h1, h2⟩ (hno i hi).2⟩⟩⟩
    · exact sliceRoom_23 hx (fun v hv hi => (hZ.2 v).mpr ⟨hv, full_slice hy hf hi⟩) hcap
    · exact sliceRoom_23 hy (fun v hv hi => (hZ.2 v).mpr ⟨full_slice hx hf hi, hv⟩) hcap
  · have merge : ∀ {us vs : List Nat}, Valid us → Valid vs → (∀ v ∈ us, v ∈ Z) → (∀ v ∈ vs, v ∈ Z) →
        ∀ i, MergeRoom us vs Z i o cap := by
      intro us vs hu hv h1 h2 i b hb
      refine ⟨fun c1 c2 _ => sliceRoom_23 hu (fun v hv _ => h1 v hv) hcap b hb c1 c2,
        fun c1 c2 _ => sliceRoom_23 hv (fun v hv _ => h2 v hv) hcap b hb c1 c2, fun _ _ _ _ => ?_⟩
      have h3 := under_le Z (256 * (256 * i + b + 1))
      have h4 := decodeRoom_le (restCard us vs (256 * i + b))
      have h5 := decodeRoom_le (restCard vs us (256 * i + b))
      exact ⟨fun _ => by omega, by omega⟩
    have zx : ∀ v ∈ xs, v ∈ Z := fun v hv => (hZ.2 v).mpr (Or.inl hv)
    have zy : ∀ v ∈ ys, v ∈ Z := fun v hv => (hZ.2 v).mpr (Or.inr hv)
    refine ⟨by omega, fun i hi => ⟨fun _ _ => sliceRoom_23 hx (fun v hv _ => zx v hv) hcap,
      fun _ _ => sliceRoom_23 hy (fun v hv _ => zy v hv) hcap, fun _ _ _ _ => ?_⟩⟩
    split
    · exact merge hx hy zx zy i
    · exact merge hy hx zy zx i

/-- C69: more slots do not hurt. -/
theorem C69_mono {o cap cap' : Nat} (h : cap ≤ cap') :
    (InterRoom xs ys Z o cap → InterRoom xs ys Z o cap') ∧
    (UnionRoom xs ys Z o cap → UnionRoom xs ys Z o cap') := by
  have st : ∀ {zs : List Nat} {i : Nat}, SliceRoom zs Z i o cap → SliceRoom zs Z i o cap' :=
    fun h1 c hc a1 a2 => Nat.le_trans (h1 c hc a1 a2) h
  have mt : ∀ {zs ws : List Nat} {i : Nat}, MergeRoom zs ws Z i o cap → MergeRoom zs ws Z i o cap' := by
    intro zs ws i h1 c hc
    obtain ⟨g1, g2, g3⟩ := h1 c hc
    refine ⟨fun a1 a2 a3 => Nat.le_trans (g1 a1 a2 a3) h, fun a1 a2 a3 => Nat.le_trans (g2 a1 a2 a3) h,
      fun a1 a2 a3 a4 => ?_⟩
    obtain ⟨k1, k2⟩ := g3 a1 a2 a3 a4
    exact ⟨fun a5 => by have := k1 a5; omega, by omega⟩
  constructor
  · rintro ⟨h0, h1⟩
    refine ⟨by omega, fun i hi => ?_⟩
    obtain ⟨g1, g2, g3⟩ := h1 i hi
    exact ⟨fun a1 a2 c hc a3 a4 => Nat.le_trans (g1 a1 a2 c hc a3 a4) h, fun a1 a2 => st (g2 a1 a2),
      fun a1 a2 => st (g3 a1 a2)⟩
  · rintro ⟨h0, h1⟩
    refine ⟨by omega, fun i hi => ?_⟩
    obtain ⟨g1, g2, g3⟩ := h1 i hi
    refine ⟨fun a1 a2 => st (g1 a1 a2), fun a1 a2 => st (g2 a1 a2), fun a1 a2 a3 a4 => ?_⟩
    have := g3 a1 a2 a3 a4
    split at this
    · rename_i hlt
      rw [if_pos hlt]; exact mt this
    · rename_i hlt
      rw [if_neg hlt]; exact mt this

section OneBlock
variable {j o cap : Nat}

theorem blockOf_block (h : ∀ x ∈ xs, x / 256 = j) : blockOf xs j = xs := by
  unfold blockOf
  rw [List.filter_eq_self]
  exact fun x hx => beq_iff_eq.mpr (h x hx)

theorem under_block_first (h : ∀ z ∈ Z, z / 256 = j) : under Z (256 * j) = 0 := by
  unfold under
  rw [List.length_eq_zero_iff, List.filter_eq_nil_iff]
  intro z hz
  have := h z hz
  simp only [decide_eq_true_eq]
  omega

theorem under_block_last (h : ∀ z ∈ Z, z / 256 = j) : under Z (256 * (j + 1)) = Z.length := by
  rw [under_next, under_block_first h, blockCard_block h, if_pos rfl, Nat.zero_add]

/-- C69: two lists of fewer than 31 elements inside the same block of 256 values. -/
theorem C69_one_block (hx : Valid xs) (hy : Valid ys) (h : ∀ x ∈ xs, x / 256 = j)
    (h' : ∀ y ∈ ys, y / 256 = j) (hn : xs.length < 31) (hn' : ys.length < 31) :
    (Enumerates Z (fun v => v ∈ xs ∧ v ∈ ys) →
      (InterRoom xs ys Z o cap ↔ o + blkNeed xs ys ≤ cap)) ∧
    (Enumerates Z (fun v => v ∈ xs ∨ v ∈ ys) →
      (UnionRoom xs ys Z o cap ↔ o + Z.length ≤ cap ∧
        (restCard ys xs j ≠ 0 →
          o + Z.length + decodeRoom (restCard ys xs j) ≤ cap + restCard ys xs j) ∧
        o + Z.length + decodeRoom (restCard xs ys j) ≤ cap + restCard xs ys j)) := by
  have px := List.length_pos_iff.mpr hx.1
  have py := List.length_pos_iff.mpr hy.1
  have hj := block_lt hx h
  have cx : blockCard xs (256 * (j / 256) + j % 256) = xs.length := by
    rw [blockCard_block h, if_pos (by omega)]
  have cy : blockCard ys (256 * (j / 256) + j % 256) = ys.length := by
    rw [blockCard_block h', if_pos (by omega)]
  have sx : sliceCard xs (j / 256) = xs.length := by rw [sliceCard_block h, if_pos rfl]
  have sy : sliceCard ys (j / 256) = ys.length := by rw [sliceCard_block h', if_pos rfl]
  have only : ∀ {zs : List Nat} {i c : Nat}, (∀ z ∈ zs, z / 256 = j) → c < 256 →
      1 ≤ blockCard zs (256 * i + c) → i = j / 256 ∧ c = j % 256 := by
    intro zs i c hz hc h1
    rw [blockCard_block hz] at h1
    split at h1
    · omega
    · omega
  have ej : 256 * (j / 256) + j % 256 = j := by omega
  refine ⟨fun hZ => ?_, fun hZ => ?_⟩
  · have hz : ∀ z ∈ Z, z / 256 = j := fun z hz => h z ((hZ.2 z).mp hz).1
    have hzl : Z.length ≤ blkNeed xs ys := by
      rw [hZ.unique (enumerates_inter hx)]
      exact blkNeed_ge hx.2.1 hy.2.1
    constructor
    · intro ht
      have := (ht.2 (j / 256) hj).1 (sparseSlice_block hx.1 h hn) (sparseSlice_block hy.1 h' hn')
        (j % 256) (by omega)
      rw [cx, cy, ej, blockOf_block h, blockOf_block h', under_block_first hz] at this
      exact this px py
    · intro ht
      refine ⟨by omega, fun i hi => ⟨fun _ _ c hc h1 h2 => ?_, fun hs hf => ?_, fun hf hs => ?_⟩⟩
      · obtain ⟨rfl, rfl⟩ := only h hc h1
        rw [ej, blockOf_block h, blockOf_block h', under_block_first hz]
        exact ht
      · rw [sliceCard_block h'] at hf
        split at hf <;> omega
      · rw [sliceCard_block h] at hf
        split at hf <;> omega
  · have hz : ∀ z ∈ Z, z / 256 = j := fun z hz => ((hZ.2 z).mp hz).elim (h z) (h' z)
    constructor
    · intro ht
      have := (ht.2 (j / 256) hj).2.2 (sparseSlice_block hx.1 h hn) (by omega)
        (sparseSlice_block hy.1 h' hn') (by omega)
      rw [sliceBlocks_block hx h, sliceBlocks_block hy h', if_neg (Nat.lt_irrefl 1)] at this
      have := (this (j % 256) (by omega)).2.2
      rw [cx, cy, ej, under_block_last hz] at this
      exact ⟨ht.1, this py hn' px hn⟩
    · rintro ⟨g0, g1⟩
      refine ⟨g0, fun i hi => ?_⟩
      refine ⟨fun _ h0 c hc h1 _ => ?_, fun _ h0 c hc h1 _ => ?_, fun _ h1 _ h2 => ?_⟩
      · obtain ⟨rfl, rfl⟩ := only h hc h1
        omega
      · obtain ⟨rfl, rfl⟩ := only h' hc h1
        omega
      · obtain rfl : i = j / 256 := by
          rw [sliceCard_block h] at h1
          split at h1
          · assumption
          · exact absurd rfl h1
        rw [sliceBlocks_block hx h, sliceBlocks_block hy h', if_neg (Nat.lt_irrefl 1)]
        intro c hc
        refine ⟨fun a1 _ a3 => ?_, fun a1 _ a3 => ?_, fun a1 _ a3 _ => ?_⟩
        · obtain ⟨-, rfl⟩ := only h' hc a1
          omega
        · obtain ⟨-, rfl⟩ := only h hc a1
          omega
        · obtain ⟨-, rfl⟩ := only h' hc a1
          rw [ej, under_block_last hz]
          exact g1

end OneBlock

/-! ## The programs -/

section Programs
variable {α σ : Type}

theorem forEach_exact {body : α → σ → Res σ} (P : List α → σ → Prop) (T : α → Prop) :
    ∀ (v pre : List α) (s : σ), P pre s →
    (∀ pre x s, x ∈ v → P pre s → Exact (T x) (body x s) (P (pre ++ [x]))) →
    Exact (∀ x ∈ v, T x) (forEach body v s) (P (pre ++ v))
  | [], pre, s, h, _ => ⟨fun _ => ⟨s, rfl, by rwa [List.append_nil]⟩, fun h => absurd (by simp) h⟩
  | x :: v, pre, s, h, hb => by
    have h1 := hb pre x s List.mem_cons_self h
    by_cases hT : T x
    · obtain ⟨s1, e1, p1⟩ := h1.1 hT
      have h2 := forEach_exact P T v (pre ++ [x]) s1 p1
        (fun pre y s hy => hb pre y s (List.mem_cons_of_mem _ hy))
      unfold forEach
      rw [e1, ok_bind, List.append_cons]
      exact h2.congr ⟨fun h y hy => (List.mem_cons.mp hy).elim (fun e => e ▸ hT) (h y),
        fun h y hy => h y (List.mem_cons_of_mem _ hy)⟩
    · refine ⟨fun h => absurd (h x List.mem_cons_self) hT, fun _ => ?_⟩
      unfold forEach
      rw [h1.2 hT]; rfl

theorem forRange_exact {body : Nat → σ → Res σ} (P : Nat → σ → Prop) (T : Prop) :
    ∀ (n i : Nat) (s : σ), P i s →
    (∀ j s, P j s → Exact T (body j s) (P (j + 1))) →
    Exact (n = 0 ∨ T) (forRange body n i s) (P (i + n))
  | 0, _, s, h, _ => ⟨fun _ => ⟨s, rfl, h⟩, fun h => absurd (Or.inl rfl) h⟩
  | n + 1, i, s, h, hb => by
    have h1 := hb i s h
    by_cases hT : T
    · obtain ⟨s1, e1, p1⟩ := h1.1 hT
      have h2 := forRange_exact P T n (i + 1) s1 p1 hb
      unfold forRange
      rw [e1, ok_bind, show i + (n + 1) = i + 1 + n by omega]
      exact h2.congr ⟨fun _ => Or.inr hT, fun _ => Or.inr hT⟩
    · refine ⟨fun h => absurd (h.resolve_left (by omega)) hT, fun _ => ?_⟩
      unfold forRange
      rw [h1.2 hT]; rfl

/-- the size of the file with the index of some lists -/
def fileSize (ks : List (List Nat)) : Nat := 16 + 8 * (ks.length + 1) + (ks.map encodedSize).sum

/-- the bytes that can be read behind sequence `i` of that file mapped with pages of `P` bytes -/
def bytesBehind (P : Nat) (ks : List (List Nat)) (i : Nat) : Nat :=
  fileSize ks + (P - fileSize ks % P) % P - (startAt ks i + encodedSize (ks[i]?.getD []))

/-- query `q` can be answered by `intersect`, whose buffer has `univ` slots -/
def CanIntersect (P : Nat) (ks : List (List Nat)) (univ : Nat) (q : Nat × Nat) : Prop :=
  InterTail (ks[q.1]?.getD []) (ks[q.2]?.getD []) (bytesBehind P ks q.1) (bytesBehind P ks q.2) ∧
  ∀ Z, Enumerates Z (fun v => v ∈ ks[q.1]?.getD [] ∧ v ∈ ks[q.2]?.getD []) →
    InterRoom (ks[q.1]?.getD []) (ks[q.2]?.getD []) Z 0 univ

/-- query `q` can be answered by `union` -/
def CanUnite (P : Nat) (ks : List (List Nat)) (univ : Nat) (q : Nat × Nat) : Prop :=
  (q.1 = q.2 ∧ (ks[q.1]?.getD []).length ≤ univ) ∨
  (q.1 ≠ q.2 ∧
    UnionTail (ks[q.1]?.getD []) (ks[q.2]?.getD []) (bytesBehind P ks q.1) (bytesBehind P ks q.2) ∧
    ∀ Z, Enumerates Z (fun v => v ∈ ks[q.1]?.getD [] ∨ v ∈ ks[q.2]?.getD []) →
      UnionRoom (ks[q.1]?.getD []) (ks[q.2]?.getD []) Z 0 univ)

variable {params : Params} {univ : Nat} {lists : List (List Nat)} {offs : List Nat}
  {seqs : List UInt8} {st : Stats} {dbg' : Bool}

theorem file_length (hg : GoodCollection params univ lists)
    (hb : build_index dbg params (collection univ lists) = .ok (offs, seqs, st)) :
    (save_index offs seqs).length = fileSize (keptLists params lists) := by
  obtain ⟨st', e, -⟩ := build_index_spec (dbg := dbg) hg
  rw [hb] at e
  simp only [Except.ok.injEq, Prod.mk.injEq] at e
  obtain ⟨rfl, rfl, -⟩ := e
  rw [save_index_length, List.length_cons, startsOf, startsFrom_length, allBytes_length]
  rfl

/-- the sequences of the mapped file, each with what can be read behind it -/
theorem mapped_behind (hg : GoodCollection params univ lists)
    (hb : build_index dbg params (collection univ lists) = .ok (offs, seqs, st))
    (hsz : (save_index offs seqs).length < 18446744073709551616) (P a : Nat) :
    ∃ idx, SIndex.mmap (mapped P a (save_index offs seqs)) a = .ok idx ∧ idx.univ = univ ∧
      ∀ i xs, (keptLists params lists)[i]? = some xs → Valid xs ∧ ∀ dbg', ∃ s bytes,
        idx.get dbg' (mapped P a (save_index offs seqs)) i = .ok s ∧ bytes.length = encodedSize xs ∧
        StoredAt dbg xs (bytesBehind P (keptLists params lists) i) (mapped P a (save_index offs seqs))
          (a + startAt (keptLists params lists) i) bytes s ∧
        mapped P a (save_index offs seqs) (a + startAt (keptLists params lists) i + bytes.length
          + bytesBehind P (keptLists params lists) i) = none := by
  obtain ⟨idx, h1, -, h2⟩ := mapped_stored hg hb hsz P a
  have hF : FileAt dbg params univ lists (mapped P a (save_index offs seqs)) a
      ((P - (save_index offs seqs).length % P) % P) :=
    ⟨hg, _, _, _, hb, hsz, loaded_memOf _ _ _, readable_memOf _ _ _⟩
  obtain ⟨idx', h⟩ := hF.indexed
  obtain rfl : idx = idx' := Except.ok.inj (h1.symm.trans h.map)
  refine ⟨idx, h1, h.univ, ?_⟩
  intro i xs hi
  refine ⟨h.valid xs (List.mem_of_getElem? hi), fun dbg' => ?_⟩
  obtain ⟨s, b, hs, lx, sx⟩ := h2 i xs hi dbg'
  have hle := startAt_le hi
  rw [file_length hg hb] at sx
  have := sx (bytesBehind P (keptLists params lists) i) (by
    unfold bytesBehind
    rw [hi, Option.getD_some]
    unfold fileSize at *
    omega)
  exact ⟨s, b, hs, lx, this⟩

/-- C69: build a collection, save it, map the file, run `intersect` on queries that name sequences of
the index.  It adds up the sizes of the intersections if each of the queries that it reads can be
answered, and is undefined otherwise. -/
theorem C69_tool_intersect (ht : TabOk tab) (hg : GoodCollection params univ lists)
    (hb : build_index dbg params (collection univ lists) = .ok (offs, seqs, st))
    (hsz : (save_index offs seqs).length < 18446744073709551616) (P a : Nat)
    {n : Nat} {qs : List (Nat × Nat)} (hn : n < 4294967296)
    (hq : ∀ q ∈ qs, q.1 < (keptLists params lists).length ∧ q.2 < (keptLists params lists).length)
    (x : List Nat) (hx : x.length = 1024) :
    ((∀ q ∈ qs.take n, CanIntersect P (keptLists params lists) univ q) →
      tool_intersect dbg' tab (mapped P a (save_index offs seqs)) a n (pairTokens qs) x
        = .ok (11 * ((qs.take n).map (commonSize (keptLists params lists))).sum
          % 18446744073709551616)) ∧
    (¬ (∀ q ∈ qs.take n, CanIntersect P (keptLists params lists) univ q) →
      tool_intersect dbg' tab (mapped P a (save_index offs seqs)) a n (pairTokens qs) x = .error .ub) := by
  obtain ⟨idx, h1, huniv, h2⟩ := mapped_behind hg hb hsz P a
  generalize keptLists params lists = ks at *
  generalize save_index offs seqs = F at *
  unfold tool_intersect
  rw [limit_pairs hn, h1]
  simp only [ok_bind, huniv]
  replace hq : ∀ q ∈ qs.take n, q.1 < ks.length ∧ q.2 < ks.length :=
    fun q hm => hq q (List.mem_of_mem_take hm)
  generalize qs.take n = qs' at *
  generalize hT : (qs'.map (commonSize ks)).sum = T
  have main := forRange_exact
    (fun r (s : Nat × List Nat × List Nat) => s.1 = r * T % 18446744073709551616 ∧
      s.2.1.length = 1024 ∧ s.2.2.length = univ) (∀ q ∈ qs', CanIntersect P ks univ q)
    11 0 (0, x, List.replicate univ 0)
    ⟨by simp, hx, List.length_replicate⟩
    (body := fun _ s => forEach (fun (q : Nat × Nat) (s : Nat × List Nat × List Nat) => do
      let l ← idx.get dbg' (mapped P a F) q.1
      let r ← idx.get dbg' (mapped P a F) q.2
      let (n, x, out) ← pairwise_intersection dbg' tab (mapped P a F) l r s.2.1 s.2.2 0
      return (u64 (s.1 + n), x, out)) qs' s) (by
      rintro r ⟨t, x, o⟩ ⟨htr, hx, ho⟩
      simp only at htr hx ho
      refine Exact.mono (forEach_exact
        (fun pre (s : Nat × List Nat × List Nat) =>
          s.1 = (r * T + (pre.map (commonSize ks)).sum) % 18446744073709551616 ∧
          s.2.1.length = 1024 ∧ s.2.2.length = univ) (CanIntersect P ks univ)
        qs' [] (t, x, o) ⟨by simp [htr], hx, ho⟩ ?_) ?_
      · rintro pre q ⟨t, x, o⟩ hqm ⟨htr, hx, ho⟩
        simp only at htr hx ho
        obtain ⟨hq1, hq2⟩ := hq q hqm
        have e1 : ks[q.1]? = some ks[q.1] := List.getElem?_eq_getElem hq1
        have e2 : ks[q.2]? = some ks[q.2] := List.getElem?_eq_getElem hq2
        obtain ⟨vx, g1⟩ := h2 _ _ e1
        obtain ⟨vy, g2⟩ := h2 _ _ e2
        obtain ⟨l, b, hl, lx, sl, el⟩ := g1 dbg'
        obtain ⟨r, b', hr, ly, sr, er⟩ := g2 dbg'
        have hZ : Enumerates (ks[q.1].filter (fun v => decide (v ∈ ks[q.2])))
            (fun v => v ∈ ks[q.1] ∧ v ∈ ks[q.2]) :=
          ⟨vx.2.1.filter _, fun v => by rw [List.mem_filter, decide_eq_true_eq]⟩
        have hs : commonSize ks q = (ks[q.1].filter (fun v => decide (v ∈ ks[q.2]))).length := by
          unfold commonSize; rw [e1, e2]; rfl
        have k := C69_intersection (dbg := dbg') ht vx vy sl sr el er hZ x hx o 0 (Nat.zero_le _)
        have hc : CanIntersect P ks univ q ↔
            InterTail ks[q.1] ks[q.2] (bytesBehind P ks q.1) (bytesBehind P ks q.2) ∧
            InterRoom ks[q.1] ks[q.2] (ks[q.1].filter (fun v => decide (v ∈ ks[q.2]))) 0 o.length := by
          unfold CanIntersect
          rw [e1, e2, ho]
          exact and_congr Iff.rfl ⟨fun h => h _ hZ, fun h Z hZ' => hZ'.unique hZ ▸ h⟩
        rw [← hc] at k
        simp only [hl, hr, ok_bind]
        refine ⟨fun h => ?_, fun h => by rw [k.2 h]; rfl⟩
        obtain ⟨x', o', e, hx', w⟩ := k.1 h
        refine ⟨_, by rw [e]; rfl, ?_, hx', w.1.trans ho⟩
        simp only
        rw [htr, u64_add, List.map_append, List.sum_append, List.map_singleton,
          List.sum_singleton, hs, Nat.add_assoc]
      · rintro ⟨t', x', o'⟩ ⟨ht', hx', ho'⟩
        refine ⟨?_, hx', ho'⟩
        simp only at ht' ⊢
        rw [List.nil_append, hT] at ht'
        rw [ht', Nat.succ_mul])
  have main := main.congr (T' := ∀ q ∈ qs', CanIntersect P ks univ q)
    ⟨fun h => h.resolve_left (by decide), Or.inr⟩
  refine ⟨fun h => ?_, fun h => by rw [main.2 h]; rfl⟩
  obtain ⟨⟨t, x', o⟩, e, ht', -⟩ := main.1 h
  rw [e]
  simp only at ht'
  rw [ht']; rfl

/-- C69: build a collection, save it, map the file, run `union` on queries that name sequences of
the index.  It adds up the sizes of the unions if each of the queries that it reads can be
answered, and is undefined otherwise. -/
theorem C69_tool_union (hg : GoodCollection params univ lists)
    (hb : build_index dbg params (collection univ lists) = .ok (offs, seqs, st))
    (hsz : (save_index offs seqs).length < 18446744073709551616) (P a : Nat)
    {n : Nat} {qs : List (Nat × Nat)} (hn : n < 4294967296)
    (hq : ∀ q ∈ qs, q.1 < (keptLists params lists).length ∧ q.2 < (keptLists params lists).length)
    (x : UScratch) (hx : x.Ok) :
    ((∀ q ∈ qs.take n, CanUnite P (keptLists params lists) univ q) →
      tool_union dbg' (mapped P a (save_index offs seqs)) a n (pairTokens qs) x
        = .ok (11 * ((qs.take n).map (eitherSize (keptLists params lists))).sum
          % 18446744073709551616)) ∧
    (¬ (∀ q ∈ qs.take n, CanUnite P (keptLists params lists) univ q) →
      tool_union dbg' (mapped P a (save_index offs seqs)) a n (pairTokens qs) x = .error .ub) := by
  obtain ⟨idx, h1, huniv, h2⟩ := mapped_behind hg hb hsz P a
  generalize keptLists params lists = ks at *
  generalize save_index offs seqs = F at *
  unfold tool_union
  rw [limit_pairs hn, h1]
  simp only [ok_bind, huniv]
  replace hq : ∀ q ∈ qs.take n, q.1 < ks.length ∧ q.2 < ks.length :=
    fun q hm => hq q (List.mem_of_mem_take hm)
  generalize qs.take n = qs' at *
  generalize hT : (qs'.map (eitherSize ks)).sum = T
  have main := forRange_exact
    (fun r (s : Nat × UScratch × List Nat) => s.1 = r * T % 18446744073709551616 ∧
      s.2.1.Ok ∧ s.2.2.length = univ) (∀ q ∈ qs', CanUnite P ks univ q)
    11 0 (0, x, List.replicate univ 0)
    ⟨by simp, hx, List.length_replicate⟩
    (body := fun _ s => forEach (fun (q : Nat × Nat) (s : Nat × UScratch × List Nat) => do
      let l ← idx.get dbg' (mapped P a F) q.1
      let r ← idx.get dbg' (mapped P a F) q.2
      let (n, x, out) ← pairwise_union dbg' (mapped P a F) l r s.2.1 s.2.2 0
      return (u64 (s.1 + n), x, out)) qs' s) (by
      rintro r ⟨t, x, o⟩ ⟨htr, hx, ho⟩
      simp only at htr hx ho
      refine Exact.mono (forEach_exact
        (fun pre (s : Nat × UScratch × List Nat) =>
          s.1 = (r * T + (pre.map (eitherSize ks)).sum) % 18446744073709551616 ∧
          s.2.1.Ok ∧ s.2.2.length = univ) (CanUnite P ks univ)
        qs' [] (t, x, o) ⟨by simp [htr], hx, ho⟩ ?_) ?_
      · rintro pre q ⟨t, x, o⟩ hqm ⟨htr, hx, ho⟩
        simp only at htr hx ho
        obtain ⟨hq1, hq2⟩ := hq q hqm
        have e1 : ks[q.1]? = some ks[q.1] := List.getElem?_eq_getElem hq1
        have e2 : ks[q.2]? = some ks[q.2] := List.getElem?_eq_getElem hq2
        obtain ⟨vx, g1⟩ := h2 _ _ e1
        obtain ⟨vy, g2⟩ := h2 _ _ e2
        obtain ⟨l, b, hl, lx, sl, el⟩ := g1 dbg'
        obtain ⟨r, b', hr, ly, sr, er⟩ := g2 dbg'
        have hZ := enumerates_uni vx vy
        have hs : eitherSize ks q = (uni ks[q.1] ks[q.2]).length := by
          unfold eitherSize; rw [e1, e2, uni_length vx vy]; rfl
        have k : (CanUnite P ks univ q → ∃ s' o', pairwise_union dbg' (mapped P a F) l r x o 0
              = .ok ((uni ks[q.1] ks[q.2]).length, s', o') ∧ s'.Ok ∧
              Wrote o 0 (uni ks[q.1] ks[q.2]) 23 o') ∧
            (¬ CanUnite P ks univ q → pairwise_union dbg' (mapped P a F) l r x o 0 = .error .ub) := by
          by_cases hij : q.1 = q.2
          · have hself : ks[q.1] = ks[q.2] :=
              Option.some.inj (e1.symm.trans ((congrArg (ks[·]?) hij).trans e2))
            have hlr : l = r := by
              rw [hij] at hl
              exact Except.ok.inj (hl.symm.trans hr)
            have k := C69_union_self (dbg := dbg') vx sl el x hx o 0 (Nat.zero_le _)
            have hc : CanUnite P ks univ q ↔ 0 + ks[q.1].length ≤ o.length := by
              unfold CanUnite
              rw [e1, ho, Option.getD_some, Nat.zero_add]
              exact ⟨fun h => h.elim And.right (fun h => absurd hij h.1), fun h => Or.inl ⟨hij, h⟩⟩
            have e : uni ks[q.1] ks[q.2] = ks[q.1] := by
              rw [← hself]
              exact (enumerates_uni vx vx).unique ⟨vx.2.1, fun v => by simp⟩
            rw [hc, e, ← hlr]
            exact k
          · have hap : a + startAt ks q.1 + b.length ≤ a + startAt ks q.2 ∨
                a + startAt ks q.2 + b'.length ≤ a + startAt ks q.1 := by
              rcases Nat.lt_or_gt_of_ne hij with h | h
              · have := startAt_mono e1 h
                exact Or.inl (by omega)
              · have := startAt_mono e2 h
                exact Or.inr (by omega)
            have k := C69_union (dbg := dbg') vx vy sl sr hap el er hZ x hx o 0 (Nat.zero_le _)
            have hc : CanUnite P ks univ q ↔
                UnionTail ks[q.1] ks[q.2] (bytesBehind P ks q.1) (bytesBehind P ks q.2) ∧
                UnionRoom ks[q.1] ks[q.2] (uni ks[q.1] ks[q.2]) 0 o.length := by
              unfold CanUnite
              rw [e1, e2, ho]
              exact ⟨fun h => h.elim (fun h => absurd h.1 hij) (fun h => ⟨h.2.1, h.2.2 _ hZ⟩),
                fun h => Or.inr ⟨hij, h.1, fun Z hZ' => hZ'.unique hZ ▸ h.2⟩⟩
            rw [hc]
            exact k
        simp only [hl, hr, ok_bind]
        refine ⟨fun h => ?_, fun h => by rw [k.2 h]; rfl⟩
        obtain ⟨x', o', e, hx', w⟩ := k.1 h
        refine ⟨_, by rw [e]; rfl, ?_, hx', w.1.trans ho⟩
        simp only
        rw [htr, u64_add, List.map_append, List.sum_append, List.map_singleton,
          List.sum_singleton, hs, Nat.add_assoc]
      · rintro ⟨t', x', o'⟩ ⟨ht', hx', ho'⟩
        refine ⟨?_, hx', ho'⟩
        simp only at ht' ⊢
        rw [List.nil_append, hT] at ht'
        rw [ht', Nat.succ_mul])
  have main := main.congr (T' := ∀ q ∈ qs', CanUnite P ks univ q)
    ⟨fun h => h.resolve_left (by decide), Or.inr⟩
  refine ⟨fun h => ?_, fun h => by rw [main.2 h]; rfl⟩
  obtain ⟨⟨t, x', o⟩, e, ht', -⟩ := main.1 h
  rw [e]
  simp only at ht'
  rw [ht']; rfl

/-- C69: a query can be answered if 31 bytes can be read behind both sequences and the universe has 23
values more than the result. -/
theorem C69_enough {ks : List (List Nat)} (hv : ∀ xs ∈ ks, Valid xs) {P : Nat} {q : Nat × Nat}
    (h1 : q.1 < ks.length) (h2 : q.2 < ks.length) (b1 : 31 ≤ bytesBehind P ks q.1)
    (b2 : 31 ≤ bytesBehind P ks q.2) :
    (commonSize ks q + 23 ≤ univ → CanIntersect P ks univ q) ∧
    (eitherSize ks q + 23 ≤ univ → CanUnite P ks univ q) := by
  unfold CanIntersect CanUnite commonSize eitherSize
  have vx := hv _ (List.getElem_mem h1)
  have vy := hv _ (List.getElem_mem h2)
  have e1 : ks[q.1]? = some ks[q.1] := List.getElem?_eq_getElem h1
  have e2 : ks[q.2]? = some ks[q.2] := List.getElem?_eq_getElem h2
  rw [e1, e2, Option.getD_some, Option.getD_some]
  refine ⟨fun hc => ?_, fun hc => ?_⟩
  · refine ⟨(C68_mono b1 b2).1 (C68_31 _ _).1, fun Z hZ => ((C69_23 vx vy).1 hZ).1 ?_⟩
    have : Z = ks[q.1].filter (fun v => decide (v ∈ ks[q.2])) :=
      hZ.unique ⟨vx.2.1.filter _, fun v => by rw [List.mem_filter, decide_eq_true_eq]⟩
    rw [this]
    omega
  · by_cases hij : q.1 = q.2
    · exact Or.inl ⟨hij, by omega⟩
    · refine Or.inr ⟨hij, (C68_mono b1 b2).2 (C68_31 _ _).2, fun Z hZ => (C69_23 vx vy).2 hZ ?_⟩
      rw [hZ.unique (enumerates_uni vx vy), uni_length vx vy]
      omega

/-- C69: if the universe has fewer than 8 values, and all values of the lists are inside it, `intersect`
is undefined as soon as there is a query, and `union` as soon as there is a query with two different
sequences. -/
theorem C69_small_universe (ht : TabOk tab) (hg : GoodCollection params univ lists)
    (hb : build_index dbg params (collection univ lists) = .ok (offs, seqs, st))
    (hsz : (save_index offs seqs).length < 18446744073709551616) (P a : Nat)
    (hu : univ < 8) (hlt : ∀ xs ∈ keptLists params lists, ∀ x ∈ xs, x < univ)
    {n : Nat} {qs : List (Nat × Nat)} (hn : n < 4294967296)
    (hq : ∀ q ∈ qs, q.1 < (keptLists params lists).length ∧ q.2 < (keptLists params lists).length)
    {q : Nat × Nat} (hm : q ∈ qs.take n) :
    (∀ x : List Nat, x.length = 1024 →
      tool_intersect dbg' tab (mapped P a (save_index offs seqs)) a n (pairTokens qs) x = .error .ub) ∧
    (q.1 ≠ q.2 → ∀ x : UScratch, x.Ok →
      tool_union dbg' (mapped P a (save_index offs seqs)) a n (pairTokens qs) x = .error .ub) := by
  have hv := keptLists_valid hg
  have e1 : (keptLists params lists)[q.1]? = some _ :=
    List.getElem?_eq_getElem (hq q (List.mem_of_mem_take hm)).1
  have e2 : (keptLists params lists)[q.2]? = some _ :=
    List.getElem?_eq_getElem (hq q (List.mem_of_mem_take hm)).2
  generalize (keptLists params lists)[q.1]'(hq q (List.mem_of_mem_take hm)).1 = xs at e1
  generalize (keptLists params lists)[q.2]'(hq q (List.mem_of_mem_take hm)).2 = ys at e2
  have vx := hv _ (List.mem_of_getElem? e1)
  have vy := hv _ (List.mem_of_getElem? e2)
  have lx := hlt _ (List.mem_of_getElem? e1)
  have ly := hlt _ (List.mem_of_getElem? e2)
  have short : ∀ zs : List Nat, zs.Pairwise (· < ·) → (∀ x ∈ zs, x < univ) → zs.length ≤ univ := by
    intro zs hz h
    have := nodup_subset_length (X := zs) (Y := List.range univ) (hz.imp (fun h => by omega))
      (fun v hv => List.mem_range.mpr (h v hv))
    rwa [List.length_range] at this
  have sx := short xs vx.2.1 lx
  have sy := short ys vy.2.1 ly
  have bx : ∀ x ∈ xs, x / 256 = 0 := fun x hx => by have := lx x hx; omega
  have bY : ∀ x ∈ ys, x / 256 = 0 := fun x hx => by have := ly x hx; omega
  constructor
  · intro x hx
    refine (C69_tool_intersect ht hg hb hsz P a hn hq x hx).2 (fun h => ?_)
    have := (h q hm).2
    rw [e1, e2] at this
    have hi := enumerates_inter (ys := ys) vx
    have := ((C69_one_block vx vy bx bY (by omega) (by omega)).1 hi).mp (this _ hi)
    unfold blkNeed stepNeed at this
    rw [if_pos (by omega), if_pos (by omega), if_pos (by omega), if_pos (by omega)] at this
    split at this <;> omega
  · intro hne x hx
    refine (C69_tool_union hg hb hsz P a hn hq x hx).2 (fun h => ?_)
    rcases h q hm with h | h
    · exact hne h.1
    · have := h.2.2
      rw [e1, e2] at this
      have hi := enumerates_uni vx vy
      obtain ⟨-, -, g⟩ := ((C69_one_block vx vy bx bY (by omega) (by omega)).2 hi).mp (this _ hi)
      have hr : restCard xs ys 0 ≤ xs.length :=
        Nat.le_trans (List.length_filter_le _ _) (List.length_filter_le _ _)
      have hg := (uni_length_ge xs ys).1
      unfold decodeRoom at g
      split at g <;> omega

end Programs

/-! ## Examples -/

theorem range_short_valid {e : Nat} (h0 : 0 < e) (h : e < 31) : Valid (List.range e) :=
  valid_of_lt (by intro h1; rw [List.range_eq_nil] at h1; omega) List.pairwise_lt_range
    (fun x hx => by rw [List.mem_range] at hx; omega)

/-- C69: two sequences with all `e` values of a universe of fewer than 31 values, and a buffer with one
slot for each of them: the union is never defined, the intersection is for `e = 8` and from 16 on. -/
theorem C69_complete {e : Nat} (h0 : 0 < e) (h : e < 31) :
    ¬ UnionRoom (List.range e) (List.range e) (List.range e) 0 e ∧
    (InterRoom (List.range e) (List.range e) (List.range e) 0 e ↔ e = 8 ∨ 16 ≤ e) := by
  have hv := range_short_valid h0 h
  have hb : ∀ x ∈ List.range e, x / 256 = 0 := fun x hx => by rw [List.mem_range] at hx; omega
  have hl : (List.range e).length < 31 := by rw [List.length_range]; exact h
  have k := C69_one_block (o := 0) (cap := e) (Z := List.range e) hv hv hb hb hl hl
  constructor
  · rw [k.2 ⟨hv.2.1, fun v => by simp⟩]
    rintro ⟨-, -, g⟩
    have hr : restCard (List.range e) (List.range e) 0 = 0 := by
      unfold restCard
      rw [List.length_eq_zero_iff, List.filter_eq_nil_iff]
      intro x hx hall
      obtain ⟨h1, h2⟩ := List.mem_filter.mp hx
      have := List.all_eq_true.mp hall x h1
      simp [beq_iff_eq.mp h2] at this
    rw [hr, List.length_range] at g
    unfold decodeRoom at g
    rw [if_pos (by omega)] at g
    omega
  · rw [k.1 ⟨hv.2.1, fun v => by simp⟩]
    have hi : (inter (List.range e) (List.range e)).length = e := by
      have : inter (List.range e) (List.range e) = List.range e := by
        unfold inter
        rw [List.filter_eq_self]
        exact fun x hx => decide_eq_true hx
      rw [this, List.length_range]
    unfold blkNeed stepNeed
    rw [List.length_range, if_pos h, if_pos h, hi]
    by_cases h16 : e ≤ 16
    · rw [if_pos h16, if_pos h16]
      split <;> omega
    · rw [if_neg h16, if_neg h16]
      omega

-- two short lists: 8 slots for the intersection; 11 for the union, 10 in the other order
example : InterRoom [7] [6, 8] [] 0 8 ∧ ¬ InterRoom [7] [6, 8] [] 0 7 := by
  have h := fun cap => (C69_one_block (o := 0) (cap := cap) (j := 0) (Z := []) seven_valid six_eight_valid
    (by decide) (by decide) (by decide) (by decide)).1 ⟨by decide, fun v => by simp; omega⟩
  rw [h, h]
  decide
theorem six_seven_eight : Enumerates [6, 7, 8] (fun v => v ∈ [7] ∨ v ∈ [6, 8]) :=
  ⟨by decide, fun v => by simp; omega⟩
example : UnionRoom [7] [6, 8] [6, 7, 8] 0 11 ∧ ¬ UnionRoom [7] [6, 8] [6, 7, 8] 0 10 := by
  have h := fun cap => (C69_one_block (o := 0) (cap := cap) (j := 0) seven_valid six_eight_valid (by decide)
    (by decide) (by decide) (by decide)).2 six_seven_eight
  rw [h, h]
  decide
example : UnionRoom [6, 8] [7] [6, 7, 8] 0 10 ∧ ¬ UnionRoom [6, 8] [7] [6, 7, 8] 0 9 := by
  have h := fun cap => (C69_one_block (o := 0) (cap := cap) (j := 0) (Z := [6, 7, 8]) six_eight_valid
    seven_valid (by decide) (by decide) (by decide) (by decide)).2 ⟨by decide, fun v => by simp; omega⟩
  rw [h, h]
  decide
-- 31 slots for 9 elements of which 9 are decoded after those of the other list
example : UnionRoom [1] (List.range' 2 9) (List.range' 1 10) 5 38 ∧
    ¬ UnionRoom [1] (List.range' 2 9) (List.range' 1 10) 5 37 := by
  have h := fun cap => (C69_one_block (o := 5) (cap := cap) (j := 0) (xs := [1]) (ys := List.range' 2 9)
    (Z := List.range' 1 10)
    (valid_of_lt (by decide) (by decide) (by decide)) (valid_of_lt (by decide) (by decide) (by decide))
    (by decide) (by decide) (by decide) (by decide)).2
    ⟨by decide, fun v => by simp; omega⟩
  rw [h, h]
  decide

-- C69_intersection on both sides of the border: a sequence with itself
example (ht : TabOk tab) : ∃ bytes s, StoredAt true [7] 15 (memOf 64 bytes 15) 64 bytes s ∧
    (∃ x' out', pairwise_intersection true tab (memOf 64 bytes 15) s s (List.replicate 1024 0)
        (List.replicate 8 0) 0 = .ok (1, x', out') ∧ out'.take 1 = [7]) ∧
    pairwise_intersection true tab (memOf 64 bytes 15) s s (List.replicate 1024 0)
        (List.replicate 7 0) 0 = .error .ub := by
  have c := fun p q => (C68_one_block (p := p) (q := q) (j := 0) seven_valid seven_valid (by decide)
    (by decide) (by decide) (by decide)).1
  have e7 : Enumerates [7] (fun v => v ∈ [7] ∧ v ∈ [7]) := ⟨by decide, fun v => by simp⟩
  have d := fun cap => (C69_one_block (o := 0) (cap := cap) (j := 0) seven_valid seven_valid (by decide)
    (by decide) (by decide) (by decide)).1 e7
  obtain ⟨bytes, s, h, -⟩ := buildDecode_eq (dbg := true) seven_valid 15 8
  have k := fun cap => C69_intersection (dbg := true) ht seven_valid seven_valid h h
    (memOf_stop _ _ _) (memOf_stop _ _ _) e7 (List.replicate 1024 0) (List.length_replicate ..)
    (List.replicate cap 0) 0 (Nat.zero_le _)
  refine ⟨bytes, s, h, ?_, (k 7).2 (by rw [List.length_replicate, c, d]; decide)⟩
  obtain ⟨x', o, e, -, w⟩ := (k 8).1 (by rw [List.length_replicate, c, d]; decide)
  exact ⟨x', o, e, w.take_zero⟩

/-- the index of a small collection, mapped with pages of 4096 bytes -/
theorem small_behind {ks : List (List Nat)} (hv : ∀ xs ∈ ks, Valid xs) (hk : ks.length = 2)
    (hl : ∀ xs ∈ ks, xs.length ≤ 8) : fileSize ks ≤ 400 ∧ ∀ i, i < 2 → 31 ≤ bytesBehind 4096 ks i := by
  have hs : (ks.map encodedSize).sum ≤ 200 := by
    match ks, hk with
    | [x, y], _ =>
      have h1 := encodedSize_le (hv x (by simp))
      have h2 := encodedSize_le (hv y (by simp))
      have h3 := hl x (by simp)
      have h4 := hl y (by simp)
      simp only [List.map_cons, List.map_nil, List.sum_cons, List.sum_nil]
      omega
  have hf : fileSize ks ≤ 400 ∧ 0 < fileSize ks := by unfold fileSize; omega
  refine ⟨hf.1, fun i hi => ?_⟩
  have e1 : ks[i]? = some ks[i] := List.getElem?_eq_getElem (by omega)
  have hle : startAt ks i + encodedSize ks[i] ≤ fileSize ks := by unfold fileSize; exact startAt_le e1
  have key : ∀ t F : Nat, t ≤ F → F ≤ 400 → 0 < F → 31 ≤ F + (4096 - F % 4096) % 4096 - t := by
    intro t F h1 h2 h3
    rw [Nat.mod_eq_of_lt (a := F) (by omega)]
    omega
  unfold bytesBehind
  rw [e1, Option.getD_some]
  exact key _ _ hle hf.1 hf.2

-- the programs on an index with two sequences and a universe of 80000 values
example (ht : TabOk tab) : ∃ offs seqs st,
    build_index true { size := 1 } (collection 80000 sampleColl) = .ok (offs, seqs, st) ∧
    tool_intersect true tab (mapped 4096 0 (save_index offs seqs)) 0 5 (pairTokens [(0, 1), (1, 1)])
      (List.replicate 1024 0) = .ok 88 ∧
    tool_union true (mapped 4096 0 (save_index offs seqs)) 0 5 (pairTokens [(0, 1), (1, 1)])
      UScratch.init = .ok 88 := by
  obtain ⟨st, hb, -⟩ := build_index_spec (dbg := true) sampleColl_good
  have hk : keptLists { size := 1 } sampleColl = [[3, 5, 300, 70000], [3, 5, 300, 70000]] := by decide
  have hv := keptLists_valid sampleColl_good
  have hF := file_length sampleColl_good hb
  have hs := small_behind hv (by rw [hk]; rfl) (by rw [hk]; decide)
  refine ⟨_, _, st, hb, ?_, ?_⟩
  · rw [(C69_tool_intersect (dbg' := true) ht sampleColl_good hb (by rw [hF]; omega) 4096 0 (n := 5)
      (by decide) (by rw [hk]; decide) _ (List.length_replicate ..)).1]
    · rw [hk]; decide
    · intro q hq
      have hq' : q = (0, 1) ∨ q = (1, 1) := by simpa using hq
      rcases hq' with rfl | rfl <;>
        exact (C69_enough hv (by rw [hk]; decide) (by rw [hk]; decide) (hs.2 _ (by decide))
          (hs.2 _ (by decide))).1 (by rw [hk]; decide)
  · rw [(C69_tool_union (dbg' := true) sampleColl_good hb (by rw [hF]; omega) 4096 0 (n := 5)
      (by decide) (by rw [hk]; decide) _ UScratch.init_ok).1]
    · rw [hk]; decide
    · intro q hq
      have hq' : q = (0, 1) ∨ q = (1, 1) := by simpa using hq
      rcases hq' with rfl | rfl <;>
        exact (C69_enough hv (by rw [hk]; decide) (by rw [hk]; decide) (hs.2 _ (by decide))
          (hs.2 _ (by decide))).2 (by rw [hk]; decide)

-- C69_small_universe: two lists inside a universe of 3 values
example (ht : TabOk tab) : ∃ offs seqs st,
    build_index true {} (collection 3 [[0, 1], [0, 2]]) = .ok (offs, seqs, st) ∧
    tool_intersect true tab (mapped 4096 0 (save_index offs seqs)) 0 5 (pairTokens [(0, 1)])
      (List.replicate 1024 0) = .error .ub ∧
    tool_union true (mapped 4096 0 (save_index offs seqs)) 0 5 (pairTokens [(0, 1)])
      UScratch.init = .error .ub := by
  have hg : GoodCollection {} 3 [[0, 1], [0, 2]] := by
    refine ⟨by decide, by decide, ?_⟩
    intro xs hx _
    have hx' : xs = [0, 1] ∨ xs = [0, 2] := by simpa using hx
    rcases hx' with rfl | rfl <;> exact valid_of_lt (by decide) (by decide) (by decide)
  obtain ⟨st, hb, -⟩ := build_index_spec (dbg := true) hg
  have hk : keptLists {} [[0, 1], [0, 2]] = [[0, 1], [0, 2]] := by decide
  have hF := file_length hg hb
  have hs := small_behind (keptLists_valid hg) (by rw [hk]; rfl) (by rw [hk]; decide)
  have k := C69_small_universe (dbg' := true) ht hg hb (by rw [hF]; omega) 4096 0 (by decide)
    (by rw [hk]; decide) (n := 5) (qs := [(0, 1)]) (by decide) (by rw [hk]; decide) (q := (0, 1))
    (by decide)
  exact ⟨_, _, st, hb, k.1 _ (List.length_replicate ..), k.2 (by decide) _ UScratch.init_ok⟩

end Sliced
