import Verif.Proof.AlignedMany
import Verif.Props.AlignedQueries
import Verif.Props.TailOps
import Verif.Props.ManyWay
/-!
# C70: the alignment of the words that the set operations read

As C62 and C66 for `pairwise_intersection`, `pairwise_union` and `union_many`: exactly for which lists and
addresses they keep the alignment rules of C++.  Which bitmaps are read as 64-bit words depends on how the
other lists store the same slice: in some combinations a bitmap is copied byte by byte, in others it is
not looked into.
-/
namespace Sliced

/-- The intersection of `xs` with `ys` reads the words of the bitmap of `xs` with the place of `v`: `ys`
has a value in the slice and, if `xs` stores the slice as blocks, `ys` has the whole slice, or stores it as
blocks too and has a value in the block. -/
def InterReads (xs ys : List Nat) (v : Nat) : Prop :=
  sliceCard ys (v / 65536) ≠ 0 ∧ (sparseSlice xs (v / 65536) = true →
    sliceCard ys (v / 65536) = 65536 ∨
    (sparseSlice ys (v / 65536) = true ∧ blockCard ys (v / 256) ≠ 0))

/-- The union of `xs` with `ys` reads the words of the bitmap of `xs` with the place of `v`: `ys` does not
have the whole slice and, if `xs` stores the slice as blocks, then `ys` does not store it as a bitmap. -/
def UnionReads (xs ys : List Nat) (v : Nat) : Prop :=
  sliceCard ys (v / 65536) ≠ 65536 ∧
    (sparseSlice xs (v / 65536) = true → sparseSlice ys (v / 65536) = true)

/-- all the bitmaps of the two lists that the intersection reads are aligned -/
def InterAligned (xs ys : List Nat) (a b : Nat) : Prop :=
  (∀ v ∈ xs, InterReads xs ys v → BitmapAligned xs a v) ∧
  (∀ v ∈ ys, InterReads ys xs v → BitmapAligned ys b v)

/-- all the bitmaps of the two lists that the union reads are aligned -/
def UnionAligned (xs ys : List Nat) (a b : Nat) : Prop :=
  (∀ v ∈ xs, UnionReads xs ys v → BitmapAligned xs a v) ∧
  (∀ v ∈ ys, UnionReads ys xs v → BitmapAligned ys b v)

/-- The union of the lists of `ps` at their addresses: a slice that is stored as a bitmap, and of which an
earlier list has a value, is at a multiple of 8. -/
def ManyAligned (ps : List (List Nat × Nat)) : Prop :=
  ps.Pairwise (fun p q => ∀ x ∈ p.1, ∀ y ∈ q.1, x / 65536 = y / 65536 →
    y / 65536 ∈ denseSlices q.1 → (q.2 + sliceStart q.1 (y / 65536)) % 8 = 0)

/-! ## From the representation to the specification -/

section
variable {xs ys : List Nat} {a b : Nat}

theorem chunkPos_eq {i : Nat} (hi : i < 65535) : chunkPos xs a i = a + sliceStart xs i := by
  rw [sliceStart_eq xs hi]; unfold chunkPos; omega

theorem sliceCard_ne_iff {i : Nat} : chunkVals xs i ≠ [] ↔ sliceCard xs i ≠ 0 := by
  rw [← chunkVals_length]
  exact ⟨fun h h' => h (List.length_eq_zero_iff.mp h'), fun h h' => h (by rw [h']; rfl)⟩

theorem slice_has {v : Nat} (h : v ∈ xs) : sliceCard xs (v / 65536) ≠ 0 := by
  unfold sliceCard
  intro h0
  rw [List.length_eq_zero_iff, List.filter_eq_nil_iff] at h0
  exact h0 v h (by simp)

theorem has_of_slice {i : Nat} (h : sliceCard xs i ≠ 0) : ∃ v ∈ xs, v / 65536 = i := by
  unfold sliceCard at h
  obtain ⟨x, hx⟩ := List.exists_mem_of_length_pos (Nat.pos_of_ne_zero h)
  obtain ⟨h1, h2⟩ := List.mem_filter.mp hx
  exact ⟨x, h1, by simpa using h2⟩

theorem has_of_block {j : Nat} (h : blockCard xs j ≠ 0) : ∃ v ∈ xs, v / 256 = j := by
  unfold blockCard at h
  obtain ⟨x, hx⟩ := List.exists_mem_of_length_pos (Nat.pos_of_ne_zero h)
  obtain ⟨h1, h2⟩ := List.mem_filter.mp hx
  exact ⟨x, h1, by simpa using h2⟩

/-- the bitmaps of slice `i` are aligned -/
def SliceGate (xs : List Nat) (a i : Nat) : Prop := ∀ v ∈ xs, v / 65536 = i → BitmapAligned xs a v

theorem mem_dense_iff {i : Nat} (hi : i < 65535) (h0 : sliceCard xs i ≠ 0) :
    i ∈ denseSlices xs ↔ sparseSlice xs i = false ∧ sliceCard xs i ≠ 65536 := by
  simp only [denseSlices, slicesOf, List.mem_filter, List.mem_range, Bool.and_eq_true,
    decide_eq_true_eq, Bool.not_eq_true']
  exact ⟨fun h => h.2, fun h => ⟨⟨hi, h0⟩, h⟩⟩

theorem sliceGate_full {i : Nat} (hi : i < 65535) (h1 : sparseSlice xs i = false)
    (h2 : sliceCard xs i = 65536) : SliceGate xs a i := by
  intro v _ he
  unfold BitmapAligned
  rw [he]
  refine ⟨fun h => ?_, fun h => by rw [h1] at h; cases h⟩
  have := ((mem_dense_iff hi (by omega)).mp h).2
  omega

theorem sliceGate_dense {i : Nat} (hi : i < 65535) (h0 : sliceCard xs i ≠ 0)
    (h1 : sparseSlice xs i = false) (h2 : sliceCard xs i ≠ 65536) :
    SliceGate xs a i ↔ chunkPos xs a i % 8 = 0 := by
  rw [chunkPos_eq hi]
  constructor
  · intro h
    obtain ⟨v, hv, he⟩ := has_of_slice h0
    have := (h v hv he).1
    rw [he] at this
    exact this ((mem_dense_iff hi h0).mpr ⟨h1, h2⟩)
  · intro h v _ he
    unfold BitmapAligned
    rw [he]
    exact ⟨fun _ => h, fun h => by rw [h1] at h; cases h⟩

/-- the bitmap of a block -/
theorem bitmap_block {i k v : Nat} (hi : i < 65535) (hk : k < 256) (hsp : sparseSlice xs i = true)
    (he : v / 256 = 256 * i + k) :
    BitmapAligned xs a v ↔ (31 ≤ blockCard xs (256 * i + k) → (a + blockStart xs i k) % 8 = 0) := by
  unfold BitmapAligned
  rw [show v / 65536 = i by omega, he, show (256 * i + k) % 256 = k by omega]
  refine ⟨fun h => h.2 hsp, fun h => ⟨fun hd => ?_, fun _ => h⟩⟩
  simp only [denseSlices, List.mem_filter, Bool.and_eq_true, hsp] at hd
  simp at hd

theorem sliceGate_sparse {i : Nat} (hi : i < 65535) (h1 : sparseSlice xs i = true) :
    SliceGate xs a i ↔ blocksAligned (chunkPos xs a i + 2 * (blocksTo (chunkVals xs i) 256).length)
      (blocksTo (chunkVals xs i) 256) := by
  rw [blocksAligned_iff]
  have key : ∀ k, k < 256 → chunkPos xs a i + 2 * (blocksTo (chunkVals xs i) 256).length
      + ((List.range k).map (fun j => blockData (blockVals (chunkVals xs i) j).length)).sum
      = a + blockStart xs i k := by
    intro k hk
    rw [blockStart_eq hi (by omega), sliceBlocks_eq]
    unfold chunkPos
    omega
  constructor
  · intro h k hk h31
    rw [key k hk]
    rw [blockVals_chunkVals xs i hk] at h31
    obtain ⟨v, hv, he⟩ := has_of_block (xs := xs) (j := 256 * i + k) (by omega)
    exact (bitmap_block hi hk h1 he).mp (h v hv (by omega)) h31
  · intro h v hv he
    have hk : v / 256 % 256 < 256 := by omega
    refine (bitmap_block hi hk h1 (by omega)).mpr (fun h31 => ?_)
    rw [← key _ hk]
    exact h _ hk (by rw [blockVals_chunkVals xs i hk]; exact h31)

theorem sliceGate_iff {i : Nat} (hi : i < 65535) (h0 : sliceCard xs i ≠ 0) :
    bodyAligned (chunkPos xs a i) (bodyOf (chunkVals xs i)) ↔ SliceGate xs a i := by
  rcases body_cases xs i with ⟨x1, x2, x3⟩ | ⟨x1, x2, x3⟩ | ⟨x1, x2, x3⟩ <;> rw [x3]
  · exact (sliceGate_sparse hi x1).symm
  · exact ⟨fun _ => sliceGate_full hi x1 x2, fun _ => trivial⟩
  · exact (sliceGate_dense hi h0 x1 x2).symm

/-- the part of `InterAligned` about one slice of one list -/
def InterGate (xs ys : List Nat) (a i : Nat) : Prop :=
  ∀ v ∈ xs, v / 65536 = i → InterReads xs ys v → BitmapAligned xs a v

theorem interGate_all {i : Nat} (h : ∀ v, v / 65536 = i → InterReads xs ys v) :
    InterGate xs ys a i ↔ SliceGate xs a i :=
  ⟨fun k v hv he => k v hv he (h v he), fun k v hv he _ => k v hv he⟩

theorem interGate_not_sparse {i : Nat} (hy : sliceCard ys i ≠ 0) (h1 : sparseSlice xs i = false) :
    InterGate xs ys a i ↔ SliceGate xs a i := by
  refine interGate_all (fun v he => ?_)
  unfold InterReads
  rw [he]
  exact ⟨hy, fun h => by rw [h1] at h; cases h⟩

theorem interGate_other_full {i : Nat} (hy : sliceCard ys i = 65536) :
    InterGate xs ys a i ↔ SliceGate xs a i := by
  refine interGate_all (fun v he => ?_)
  unfold InterReads
  rw [he]
  exact ⟨by omega, fun _ => Or.inl hy⟩

theorem interGate_other_dense {i : Nat} (h1 : sparseSlice xs i = true) (h2 : sliceCard ys i ≠ 65536)
    (h3 : sparseSlice ys i = false) : InterGate xs ys a i := by
  intro v _ he hr
  unfold InterReads at hr
  rw [he] at hr
  rcases hr.2 h1 with h | h
  · exact absurd h h2
  · rw [h3] at h; cases h.1

theorem interGate_sparse {i : Nat} (hi : i < 65535) (h1 : sparseSlice xs i = true)
    (h2 : sparseSlice ys i = true) (h3 : sliceCard ys i ≠ 65536) :
    InterGate xs ys a i ↔ ∀ k, k < 256 → blockCard ys (256 * i + k) ≠ 0 →
      31 ≤ blockCard xs (256 * i + k) → (a + blockStart xs i k) % 8 = 0 := by
  constructor
  · intro h k hk hy h31
    obtain ⟨v, hv, he⟩ := has_of_block (xs := xs) (j := 256 * i + k) (by omega)
    refine (bitmap_block hi hk h1 he).mp (h v hv (by omega) ?_) h31
    unfold InterReads
    rw [he, show v / 65536 = i by omega]
    obtain ⟨w, hw, hwe⟩ := has_of_block hy
    refine ⟨?_, fun _ => Or.inr ⟨h2, hy⟩⟩
    have := slice_has hw
    rw [show w / 65536 = i by omega] at this
    exact this
  · intro h v hv he hr
    have hk : v / 256 % 256 < 256 := by omega
    have hq : v / 256 = 256 * i + v / 256 % 256 := by omega
    refine (bitmap_block hi hk h1 hq).mpr (h _ hk ?_)
    unfold InterReads at hr
    rw [he] at hr
    rcases hr.2 h1 with h' | h'
    · exact absurd h' h3
    · rw [← hq]; exact h'.2

theorem interBody_iff {i : Nat} (hi : i < 65535) (hx : sliceCard xs i ≠ 0) (hy : sliceCard ys i ≠ 0) :
    BodyGate (chunkPos xs a i) (chunkPos ys b i) (bodyOf (chunkVals xs i)) (bodyOf (chunkVals ys i)) ↔
      InterGate xs ys a i ∧ InterGate ys xs b i := by
  rcases body_cases xs i with ⟨x1, x2, x3⟩ | ⟨x1, x2, x3⟩ | ⟨x1, x2, x3⟩ <;>
    rcases body_cases ys i with ⟨y1, y2, y3⟩ | ⟨y1, y2, y3⟩ | ⟨y1, y2, y3⟩ <;>
    rw [x3, y3] <;> simp only [BodyGate]
  · rw [pairs_blocksTo, interGate_sparse hi x1 y1 y2, interGate_sparse hi y1 x1 x2]
    constructor
    · intro h
      constructor
      · intro k hk c1 c2
        have := h k hk ((blockVals_ne_iff hk).mpr (by omega)) ((blockVals_ne_iff hk).mpr (by omega))
        simp only [BlkGate, blockVals_chunkVals _ i hk, blkPos_eq hi (Nat.le_of_lt hk)] at this
        exact this.1 c2
      · intro k hk c1 c2
        have := h k hk ((blockVals_ne_iff hk).mpr (by omega)) ((blockVals_ne_iff hk).mpr (by omega))
        simp only [BlkGate, blockVals_chunkVals _ i hk, blkPos_eq hi (Nat.le_of_lt hk)] at this
        exact this.2 c2
    · rintro ⟨h1, h2⟩ k hk c1 c2
      rw [blockVals_ne_iff hk] at c1 c2
      simp only [BlkGate, blockVals_chunkVals _ i hk, blkPos_eq hi (Nat.le_of_lt hk)]
      exact ⟨h1 k hk (by omega), h2 k hk (by omega)⟩
  · rw [interGate_other_full y2, interGate_not_sparse hx y1, sliceGate_sparse hi x1]
    exact (and_iff_left (sliceGate_full hi y1 y2)).symm
  · rw [interGate_not_sparse hx y1, sliceGate_dense hi hy y1 y2]
    exact (and_iff_right (interGate_other_dense x1 y2 y1)).symm
  · rw [interGate_other_full x2, interGate_not_sparse hy x1, sliceGate_sparse hi y1]
    exact (and_iff_right (sliceGate_full hi x1 x2)).symm
  · rw [interGate_not_sparse hx y1, interGate_not_sparse hy x1]
    exact ⟨fun _ => ⟨sliceGate_full hi x1 x2, sliceGate_full hi y1 y2⟩, fun _ => trivial⟩
  · rw [interGate_not_sparse hx y1, interGate_not_sparse hy x1, sliceGate_dense hi hy y1 y2]
    exact (and_iff_right (sliceGate_full hi x1 x2)).symm
  · rw [interGate_not_sparse hy x1, sliceGate_dense hi hx x1 x2]
    exact (and_iff_left (interGate_other_dense y1 x2 x1)).symm
  · rw [interGate_not_sparse hx y1, interGate_not_sparse hy x1, sliceGate_dense hi hx x1 x2]
    exact (and_iff_left (sliceGate_full hi y1 y2)).symm
  · rw [interGate_not_sparse hx y1, interGate_not_sparse hy x1, sliceGate_dense hi hx x1 x2,
      sliceGate_dense hi hy y1 y2]

theorem valid_slice {v : Nat} (hx : Valid xs) (h : v ∈ xs) : v / 65536 < 65535 := by
  have := hx.2.2 v h
  omega

theorem interAligned_iff (hx : Valid xs) (hy : Valid ys) :
    Pairs Chk.id (fun c d => BodyGate (chunkPos xs a c.id) (chunkPos ys b d.id) c.body d.body)
      (chunksOf xs) (chunksOf ys) ↔ InterAligned xs ys a b := by
  rw [pairs_chunksOf]
  have h1 : (∀ i, i < 65535 → chunkVals xs i ≠ [] → chunkVals ys i ≠ [] →
      BodyGate (chunkPos xs a i) (chunkPos ys b i) (bodyOf (chunkVals xs i)) (bodyOf (chunkVals ys i))) ↔
      ∀ i, i < 65535 → sliceCard xs i ≠ 0 → sliceCard ys i ≠ 0 →
        InterGate xs ys a i ∧ InterGate ys xs b i := by
    refine forall_congr' (fun i => forall_congr' (fun hi => ?_))
    rw [sliceCard_ne_iff, sliceCard_ne_iff]
    exact forall_congr' (fun c1 => forall_congr' (fun c2 => interBody_iff hi c1 c2))
  refine h1.trans ?_
  constructor
  · intro h
    refine ⟨fun v hv hr => ?_, fun v hv hr => ?_⟩
    · exact (h _ (valid_slice hx hv) (slice_has hv) hr.1).1 v hv rfl hr
    · exact (h _ (valid_slice hy hv) hr.1 (slice_has hv)).2 v hv rfl hr
  · rintro ⟨h1, h2⟩ i _ _ _
    exact ⟨fun v hv _ => h1 v hv, fun v hv _ => h2 v hv⟩

/-- the part of `UnionAligned` about one slice of one list -/
def UnionGate (xs ys : List Nat) (a i : Nat) : Prop :=
  ∀ v ∈ xs, v / 65536 = i → UnionReads xs ys v → BitmapAligned xs a v

theorem unionGate_all {i : Nat} (h1 : sliceCard ys i ≠ 65536)
    (h2 : sparseSlice xs i = true → sparseSlice ys i = true) :
    UnionGate xs ys a i ↔ SliceGate xs a i :=
  ⟨fun k v hv he => k v hv he (by unfold UnionReads; rw [he]; exact ⟨h1, h2⟩),
   fun k v hv he _ => k v hv he⟩

theorem unionGate_other_full {i : Nat} (h1 : sliceCard ys i = 65536) : UnionGate xs ys a i := by
  intro v _ he hr
  unfold UnionReads at hr
  rw [he] at hr
  exact absurd h1 hr.1

theorem unionGate_copied {i : Nat} (h1 : sparseSlice xs i = true) (h2 : sparseSlice ys i = false) :
    UnionGate xs ys a i := by
  intro v _ he hr
  unfold UnionReads at hr
  rw [he] at hr
  have := hr.2 h1
  rw [h2] at this
  cases this

theorem sparseSlice_of_empty {i : Nat} (h : sliceCard xs i = 0) : sparseSlice xs i = true := by
  cases hsp : sparseSlice xs i with
  | true => rfl
  | false =>
    have := (bodyOf_sparse xs i).2 hsp
    have h0 : chunkVals xs i = [] := by
      rw [← chunkVals_length] at h
      exact List.length_eq_zero_iff.mp h
    rw [h0] at this
    refine absurd ?_ (this (blocksTo [] 256))
    decide +kernel

theorem unionBody_iff {i : Nat} (hi : i < 65535) (hx : sliceCard xs i ≠ 0) (hy : sliceCard ys i ≠ 0) :
    UGate (chunkPos xs a i) (chunkPos ys b i) (bodyOf (chunkVals xs i)) (bodyOf (chunkVals ys i)) ↔
      UnionGate xs ys a i ∧ UnionGate ys xs b i := by
  have full_l : sparseSlice xs i = false → sliceCard xs i = 65536 →
      UnionGate xs ys a i ∧ UnionGate ys xs b i := fun h1 h2 =>
    ⟨fun v hv he _ => sliceGate_full hi h1 h2 v hv he, unionGate_other_full h2⟩
  have full_r : sparseSlice ys i = false → sliceCard ys i = 65536 →
      UnionGate xs ys a i ∧ UnionGate ys xs b i := fun h1 h2 =>
    ⟨unionGate_other_full h2, fun v hv he _ => sliceGate_full hi h1 h2 v hv he⟩
  rcases body_cases xs i with ⟨x1, x2, x3⟩ | ⟨x1, x2, x3⟩ | ⟨x1, x2, x3⟩ <;>
    rcases body_cases ys i with ⟨y1, y2, y3⟩ | ⟨y1, y2, y3⟩ | ⟨y1, y2, y3⟩ <;>
    rw [x3, y3] <;> simp only [UGate]
  · rw [unionGate_all y2 (fun _ => y1), unionGate_all x2 (fun _ => x1), sliceGate_sparse hi x1,
      sliceGate_sparse hi y1]
  · exact ⟨fun _ => full_r y1 y2, fun _ => trivial⟩
  · rw [unionGate_all (xs := ys) x2 (fun _ => x1), sliceGate_dense hi hy y1 y2]
    exact (and_iff_right (unionGate_copied x1 y1)).symm
  · exact ⟨fun _ => full_l x1 x2, fun _ => trivial⟩
  · exact ⟨fun _ => full_l x1 x2, fun _ => trivial⟩
  · exact ⟨fun _ => full_l x1 x2, fun _ => trivial⟩
  · rw [unionGate_all (xs := xs) y2 (fun _ => y1), sliceGate_dense hi hx x1 x2]
    exact (and_iff_left (unionGate_copied y1 x1)).symm
  · exact ⟨fun _ => full_r y1 y2, fun _ => trivial⟩
  · rw [unionGate_all y2 (fun h => by rw [x1] at h; cases h),
      unionGate_all x2 (fun h => by rw [y1] at h; cases h), sliceGate_dense hi hx x1 x2,
      sliceGate_dense hi hy y1 y2]

theorem unionAligned_iff (hx : Valid xs) (hy : Valid ys) :
    UGates (chunkPos xs a) (chunkPos ys b) (chunksOf xs) (chunksOf ys) ↔ UnionAligned xs ys a b := by
  unfold UGates
  rw [merged_chunksOf]
  have nil_iff : ∀ {zs : List Nat} {i : Nat}, chunkVals zs i = [] ↔ sliceCard zs i = 0 := by
    intro zs i
    rw [← chunkVals_length, List.length_eq_zero_iff]
  have alone : ∀ {us ws : List Nat} {c i : Nat}, sliceCard ws i = 0 →
      (UnionGate us ws c i ↔ SliceGate us c i) := fun h0 =>
    unionGate_all (by omega) (fun _ => sparseSlice_of_empty h0)
  constructor
  · intro h
    refine ⟨fun v hv hr => ?_, fun v hv hr => ?_⟩
    · have hi := valid_slice hx hv
      have hc := slice_has hv
      obtain ⟨h1, -, h3⟩ := h _ hi
      by_cases h0 : sliceCard ys (v / 65536) = 0
      · exact (sliceGate_iff hi hc).mp (h1 (sliceCard_ne_iff.mpr hc) (nil_iff.mpr h0)) v hv rfl
      · exact ((unionBody_iff hi hc h0).mp
          (h3 (sliceCard_ne_iff.mpr hc) (sliceCard_ne_iff.mpr h0))).1 v hv rfl hr
    · have hi := valid_slice hy hv
      have hc := slice_has hv
      obtain ⟨-, h2, h3⟩ := h _ hi
      by_cases h0 : sliceCard xs (v / 65536) = 0
      · exact (sliceGate_iff hi hc).mp (h2 (sliceCard_ne_iff.mpr hc) (nil_iff.mpr h0)) v hv rfl
      · exact ((unionBody_iff hi h0 hc).mp
          (h3 (sliceCard_ne_iff.mpr h0) (sliceCard_ne_iff.mpr hc))).2 v hv rfl hr
  · rintro ⟨h1, h2⟩ i hi
    have g1 : UnionGate xs ys a i := fun v hv _ => h1 v hv
    have g2 : UnionGate ys xs b i := fun v hv _ => h2 v hv
    refine ⟨fun c1 c2 => ?_, fun c1 c2 => ?_, fun c1 c2 => ?_⟩
    · exact (sliceGate_iff hi (sliceCard_ne_iff.mp c1)).mpr ((alone (nil_iff.mp c2)).mp g1)
    · exact (sliceGate_iff hi (sliceCard_ne_iff.mp c1)).mpr ((alone (nil_iff.mp c2)).mp g2)
    · exact (unionBody_iff hi (sliceCard_ne_iff.mp c1) (sliceCard_ne_iff.mp c2)).mpr ⟨g1, g2⟩

/-- the chunks of a list with the places of their data -/
def placedChunks (p : List Nat × Nat) : (Nat → Nat) × List Chk := (chunkPos p.1 p.2, chunksOf p.1)

theorem denseGate_iff {i : Nat} (hi : i < 65535) (h0 : sliceCard xs i ≠ 0) :
    denseAligned (chunkPos xs a i) (bodyOf (chunkVals xs i)) ↔
      (i ∈ denseSlices xs → (a + sliceStart xs i) % 8 = 0) := by
  rw [mem_dense_iff hi h0, ← chunkPos_eq hi]
  rcases body_cases xs i with ⟨x1, x2, x3⟩ | ⟨x1, x2, x3⟩ | ⟨x1, x2, x3⟩ <;> rw [x3]
  · exact ⟨fun _ h => (by rw [x1] at h; cases h.1), fun _ => trivial⟩
  · exact ⟨fun _ h => absurd x2 h.2, fun _ => trivial⟩
  · exact ⟨fun h _ => h, fun h => h ⟨x1, x2⟩⟩

theorem manyAligned_iff {ps : List (List Nat × Nat)} (hv : ∀ p ∈ ps, Valid p.1) :
    ManyGate (ps.map placedChunks) ↔ ManyAligned ps := by
  unfold ManyGate ManyAligned
  rw [List.pairwise_map]
  refine List.Pairwise.iff_of_mem (fun {p q} hp hq => ?_)
  have key := pairs_chunksOf (xs := p.1) (ys := q.1)
    (C := fun _ d => denseAligned (chunkPos q.1 q.2 d.id) d.body)
  unfold Pairs at key
  simp only [placedChunks]
  rw [key]
  constructor
  · intro h x hx y hy he
    have hi := valid_slice (hv q hq) hy
    have h1 := slice_has hx
    rw [he] at h1
    have h2 := slice_has hy
    exact (denseGate_iff hi h2).mp (h _ hi (sliceCard_ne_iff.mpr h1) (sliceCard_ne_iff.mpr h2))
  · intro h i hi c1 c2
    rw [sliceCard_ne_iff] at c1 c2
    obtain ⟨x, hx, hxe⟩ := has_of_slice c1
    obtain ⟨y, hy, hye⟩ := has_of_slice c2
    have := h x hx y hy (hxe.trans hye.symm)
    rw [hye] at this
    exact (denseGate_iff hi c2).mpr this

end

/-! ## The theorems -/

section
variable {dbg dbg₁ dbg₂ : Bool} {tab : Nat → List Nat} {xs ys Z : List Nat} {m : Mem} {l r : SSeq}
  {a b pad : Nat} {bx bY : List UInt8}

theorem SeqAtP.put {lo E : Nat} {P : Nat → Nat} {s : SSeq} {cs : List Chk}
    (h : SeqAtP (ChkIn m lo E P) m s cs) : SeqAtP (ChkPut m P) m s cs :=
  ⟨h.chunks, h.ne, h.wf, h.at_.mono (fun _ _ k => ⟨k.1.1, k.2⟩), h.ptrs⟩

theorem StoredAt.put (hv : Valid xs) (hs : StoredAt dbg xs pad m a bx l) :
    SeqAtP (ChkPut m (chunkPos xs a)) m l (chunksOf xs) := (hs.placed hv).put

theorem StoredAt.header_even (hs : StoredAt dbg xs pad m a bx l) (ha : a % 2 = 0) :
    l.header % 2 = 0 := by
  have := hs.header_eq
  omega

/-- from two sequences to their addresses -/
theorem gated_at_two {α : Type} {Q : Prop} {f : SSeq → SSeq → Res α} {v : α}
    (hl : StoredAt dbg₁ xs pad m a bx l) (hr : StoredAt dbg₂ ys pad m b bY r)
    (h : l.header % 2 = 0 → r.header % 2 = 0 → Gated Q (f l r) (.ok v)) :
    Gated (a % 2 = 0 ∧ b % 2 = 0 ∧ Q)
      (SSeq.ofAddrA m a >>= fun l => SSeq.ofAddrA m b >>= fun r => f l r) (.ok v) := by
  by_cases ha : a % 2 = 0
  · rw [hl.ofAddrA.1 ha, ok_bind]
    by_cases hb : b % 2 = 0
    · rw [hr.ofAddrA.1 hb, ok_bind]
      exact (h (hl.header_even ha) (hr.header_even hb)).iff
        ⟨fun q => ⟨ha, hb, q⟩, fun q => q.2.2⟩
    · exact ⟨fun h => absurd h.2.1 hb, fun _ => by rw [hr.ofAddrA.2 hb]; rfl⟩
  · exact ⟨fun h => absurd h.1 ha, fun _ => by rw [hl.ofAddrA.2 ha]; rfl⟩

/-- C70: the encodings of two lists at any two addresses, with 31 readable bytes behind each and room in
the output buffer.  With checked alignment `pairwise_intersection` writes the intersection if both
addresses are even and the bitmaps that it reads are aligned, and is undefined in all other cases. -/
theorem C70_intersection (ht : TabOk tab) (hx : Valid xs) (hy : Valid ys)
    (hl : StoredAt dbg₁ xs 31 m a bx l) (hr : StoredAt dbg₂ ys 31 m b bY r)
    (hZ : Enumerates Z (fun v => v ∈ xs ∧ v ∈ ys)) (x : List Nat) (hs : x.length = 1024)
    (out : List Nat) (hcap : Z.length + 23 ≤ out.length) :
    (a % 2 = 0 ∧ b % 2 = 0 ∧ InterAligned xs ys a b → ∃ x' out',
      intersectionAtA dbg tab m a b x out = .ok (Z.length, x', out') ∧ Wrote out 0 Z 23 out') ∧
    (¬ (a % 2 = 0 ∧ b % 2 = 0 ∧ InterAligned xs ys a b) →
      intersectionAtA dbg tab m a b x out = .error .ub) := by
  obtain ⟨x', out', e, -, w⟩ := C10_intersection (dbg := dbg) ht hx hy hl.stored hr.stored hZ x hs out 0
    (by omega)
  have g := gated_at_two (f := fun l r => pairwise_intersectionA dbg tab m l r x out) hl hr
    (fun h1 h2 => (pairwise_intersection_aligned h1 h2 (hl.put hx) (hr.put hy) e).iff
      (interAligned_iff hx hy))
  exact ⟨fun h => ⟨x', out', g.1 h, w⟩, g.2⟩

/-- C70: the same with the necessary and sufficient condition in one line. -/
theorem C70_intersection_iff (ht : TabOk tab) (hx : Valid xs) (hy : Valid ys)
    (hl : StoredAt dbg₁ xs 31 m a bx l) (hr : StoredAt dbg₂ ys 31 m b bY r)
    (x : List Nat) (hs : x.length = 1024) (out : List Nat)
    (hcap : min xs.length ys.length + 23 ≤ out.length) :
    intersectionAtA dbg tab m a b x out ≠ .error .ub ↔
      a % 2 = 0 ∧ b % 2 = 0 ∧ InterAligned xs ys a b := by
  obtain ⟨Z, x', o, hZ, e, -⟩ := C10_intersection_exists (dbg := dbg) ht hx hy hl.stored hr.stored x hs
    out hcap
  exact (gated_at_two (f := fun l r => pairwise_intersectionA dbg tab m l r x out) hl hr
    (fun h1 h2 => (pairwise_intersection_aligned h1 h2 (hl.put hx) (hr.put hy) e).iff
      (interAligned_iff hx hy))).ne_ub

/-- C70: two encodings that do not overlap, or the same one twice, with 31 readable bytes behind each and
room in the output buffer.  With checked alignment `pairwise_union` writes the union if both addresses are
even and the bitmaps that it reads are aligned, and is undefined in all other cases. -/
theorem C70_union (hx : Valid xs) (hy : Valid ys)
    (hl : StoredAt dbg₁ xs 31 m a bx l) (hr : StoredAt dbg₂ ys 31 m b bY r)
    (hpos : a = b ∨ a + bx.length ≤ b ∨ b + bY.length ≤ a)
    (hZ : Enumerates Z (fun v => v ∈ xs ∨ v ∈ ys)) (s : UScratch) (hs : s.Ok)
    (out : List Nat) (hcap : Z.length + 23 ≤ out.length) :
    (a % 2 = 0 ∧ b % 2 = 0 ∧ UnionAligned xs ys a b → ∃ s' out',
      unionAtA dbg m a b s out = .ok (Z.length, s', out') ∧ Wrote out 0 Z 23 out') ∧
    (¬ (a % 2 = 0 ∧ b % 2 = 0 ∧ UnionAligned xs ys a b) → unionAtA dbg m a b s out = .error .ub) := by
  obtain ⟨s', out', e, -, w⟩ := C11_union (dbg := dbg) hx hy hl hr hpos hZ s hs out 0 (by omega)
  have g := gated_at_two (f := fun l r => pairwise_unionA dbg m l r s out) hl hr
    (fun h1 h2 => (pairwise_union_aligned h1 h2 (hl.put hx) (hr.put hy) e).iff
      (unionAligned_iff hx hy))
  exact ⟨fun h => ⟨s', out', g.1 h, w⟩, g.2⟩

/-- C70: the same with the necessary and sufficient condition in one line. -/
theorem C70_union_iff (hx : Valid xs) (hy : Valid ys)
    (hl : StoredAt dbg₁ xs 31 m a bx l) (hr : StoredAt dbg₂ ys 31 m b bY r)
    (hpos : a = b ∨ a + bx.length ≤ b ∨ b + bY.length ≤ a) (s : UScratch) (hs : s.Ok)
    (out : List Nat) (hcap : xs.length + ys.length + 23 ≤ out.length) :
    unionAtA dbg m a b s out ≠ .error .ub ↔ a % 2 = 0 ∧ b % 2 = 0 ∧ UnionAligned xs ys a b := by
  obtain ⟨Z, s', o, hZ, e, -⟩ := C11_union_exists (dbg := dbg) hx hy hl hr hpos s hs out hcap
  exact (gated_at_two (f := fun l r => pairwise_unionA dbg m l r s out) hl hr
    (fun h1 h2 => (pairwise_union_aligned h1 h2 (hl.put hx) (hr.put hy) e).iff
      (unionAligned_iff hx hy))).ne_ub

/-! ## union_many -/

variable {dbg' : Bool} {ps : List Placed}

theorem ofAddrA_all (hps : ∀ p ∈ ps, StoredAt dbg' p.xs pad m p.a p.bytes p.s) :
    Gated (∀ p ∈ ps, p.a % 2 = 0) ((ps.map Placed.a).mapM (SSeq.ofAddrA m)) (.ok (ps.map Placed.s)) := by
  induction ps with
  | nil => exact Gated.of_true (fun _ h => nomatch h) rfl
  | cons p ps ih =>
    rw [List.map_cons, List.mapM_cons]
    have h1 := (hps p List.mem_cons_self).ofAddrA
    have h2 := ih (fun q hq => hps q (List.mem_cons_of_mem _ hq))
    refine Gated.iff ?_ List.forall_mem_cons.symm
    by_cases ha : p.a % 2 = 0
    · rw [h1.1 ha, ok_bind]
      by_cases hb : ∀ q ∈ ps, q.a % 2 = 0
      · exact Gated.of_true ⟨ha, hb⟩ (by rw [h2.1 hb]; rfl)
      · exact ⟨fun h => absurd h.2 hb, fun _ => by rw [h2.2 hb]; rfl⟩
    · exact ⟨fun h => absurd h.1 ha, fun _ => by rw [h1.2 ha]; rfl⟩

theorem ItsPut.cons {s : SSeq} {ss : List SSeq} {P : Nat → Nat} {cs : List Chk}
    {qs : List ((Nat → Nat) × List Chk)} (he : s.header % 2 = 0) (h : SeqAtP (ChkPut m P) m s cs)
    (ht : ItsPut m (ss.map SSeq.begin) qs) : ItsPut m ((s :: ss).map SSeq.begin) ((P, cs) :: qs) :=
  ⟨⟨he, h.begin⟩, ht⟩

theorem itsPut_placed (hv : ∀ p ∈ ps, Valid p.xs)
    (hps : ∀ p ∈ ps, StoredAt dbg' p.xs pad m p.a p.bytes p.s) (he : ∀ p ∈ ps, p.a % 2 = 0) :
    ItsPut m ((ps.map Placed.s).map SSeq.begin)
      ((ps.map (fun p => (p.xs, p.a))).map placedChunks) := by
  induction ps with
  | nil => trivial
  | cons p ps ih =>
    have h1 := hps p List.mem_cons_self
    have ht := ih (fun q hq => hv q (List.mem_cons_of_mem _ hq))
      (fun q hq => hps q (List.mem_cons_of_mem _ hq)) (fun q hq => he q (List.mem_cons_of_mem _ hq))
    show ItsPut m ((p.s :: ps.map Placed.s).map SSeq.begin) ((chunkPos p.xs p.a, chunksOf p.xs)
      :: (ps.map (fun p => (p.xs, p.a))).map placedChunks)
    exact ItsPut.cons (h1.header_even (he p List.mem_cons_self)) (h1.put (hv p List.mem_cons_self)) ht

/-- C70: any number (at least one) of encodings at any addresses, with room in the output buffer.  With
checked alignment `union_many` writes the union if all addresses are even and each slice that is stored as
a bitmap, and of which a list before it has a value, is at a multiple of 8; it is undefined in all other
cases. -/
theorem C70_union_many (hv : ∀ p ∈ ps, Valid p.xs)
    (hps : ∀ p ∈ ps, StoredAt dbg' p.xs pad m p.a p.bytes p.s) (hne : ps ≠ [])
    (hZ : Enumerates Z (fun v => ∃ p ∈ ps, v ∈ p.xs)) (s : MScratch) (hs : s.Ok)
    (out : List Nat) (hcap : Z.length ≤ out.length) :
    ((∀ p ∈ ps, p.a % 2 = 0) ∧ ManyAligned (ps.map (fun p => (p.xs, p.a))) → ∃ s' out',
      unionManyAtA dbg m (ps.map Placed.a) s out = .ok (Z.length, s', out') ∧ Wrote out 0 Z 0 out') ∧
    (¬ ((∀ p ∈ ps, p.a % 2 = 0) ∧ ManyAligned (ps.map (fun p => (p.xs, p.a)))) →
      unionManyAtA dbg m (ps.map Placed.a) s out = .error .ub) := by
  obtain ⟨s', out', e, -, w⟩ := C13_union (dbg := dbg) (dbg' := dbg') (m := m) (pad := pad)
    (ps := ps.map (fun p => (p.xs, p.s))) (Z := Z)
    (by
      intro p hp
      obtain ⟨q, hq, rfl⟩ := List.mem_map.mp hp
      exact ⟨hv q hq, (hps q hq).stored⟩)
    (by simpa using hne)
    ⟨hZ.1, fun v => (hZ.2 v).trans ⟨fun ⟨p, hp, h⟩ => ⟨_, List.mem_map_of_mem hp, h⟩, fun ⟨p, hp, h⟩ => by
      obtain ⟨q, hq, rfl⟩ := List.mem_map.mp hp
      exact ⟨q, hq, h⟩⟩⟩ s hs out 0 (by omega)
  have hm : (ps.map (fun p => (p.xs, p.s))).map Prod.snd = ps.map Placed.s := by
    rw [List.map_map]; rfl
  rw [hm] at e
  unfold unionManyAtA
  have hg := ofAddrA_all hps
  by_cases he : ∀ p ∈ ps, p.a % 2 = 0
  · rw [hg.1 he, ok_bind]
    have g := (union_many_aligned (dbg := dbg) (by simpa using hne) (itsPut_placed hv hps he) e).iff
      (manyAligned_iff (ps := ps.map (fun p => (p.xs, p.a))) (by
        intro p hp
        obtain ⟨q, hq, rfl⟩ := List.mem_map.mp hp
        exact hv q hq))
    exact ⟨fun h => ⟨s', out', g.1 h.2, w⟩, fun h => g.2 (fun h' => h ⟨he, h'⟩)⟩
  · rw [hg.2 he]
    exact ⟨fun h => absurd h.1 he, fun _ => rfl⟩

/-! ## Consequences -/

/-- C70: two lists that `decode` may read can be intersected and united. -/
theorem C70_suffices (hx : Valid xs) (hy : Valid ys) (ha : BitmapsAligned xs a)
    (hb : BitmapsAligned ys b) : InterAligned xs ys a b ∧ UnionAligned xs ys a b :=
  ⟨⟨fun v _ _ => C66_all_bitmaps hx ha v, fun v _ _ => C66_all_bitmaps hy hb v⟩,
   ⟨fun v _ _ => C66_all_bitmaps hx ha v, fun v _ _ => C66_all_bitmaps hy hb v⟩⟩

/-- C70: and any number of such lists can be united. -/
theorem C70_suffices_many {ps : List (List Nat × Nat)} (hv : ∀ p ∈ ps, Valid p.1)
    (h : ∀ p ∈ ps, BitmapsAligned p.1 p.2) : ManyAligned ps := by
  refine List.Pairwise.imp_of_mem (R := fun _ _ => True) (fun {p q} _ hq _ x _ y hy _ hd => ?_)
    (List.pairwise_of_forall (fun _ _ => trivial))
  exact (C66_all_bitmaps (hv q hq) (h q hq) y).1 hd

/-- C70: the intersection of two lists without a common slice reads no bitmap, wherever they are. -/
theorem C70_apart_intersection (h : ∀ x ∈ xs, ∀ y ∈ ys, x / 65536 ≠ y / 65536) :
    InterAligned xs ys a b := by
  constructor
  · intro v hv hr
    obtain ⟨w, hw, he⟩ := has_of_slice hr.1
    exact absurd he.symm (h v hv w hw)
  · intro v hv hr
    obtain ⟨w, hw, he⟩ := has_of_slice hr.1
    exact absurd he (h w hw v hv)

/-- C70: the union of two lists without a common slice reads all bitmaps of both. -/
theorem C70_apart_union (hx : Valid xs) (hy : Valid ys)
    (h : ∀ x ∈ xs, ∀ y ∈ ys, x / 65536 ≠ y / 65536) :
    UnionAligned xs ys a b ↔ BitmapsAligned xs a ∧ BitmapsAligned ys b := by
  have empty : ∀ {us ws : List Nat}, (∀ x ∈ us, ∀ y ∈ ws, x / 65536 ≠ y / 65536) →
      ∀ v ∈ us, UnionReads us ws v := by
    intro us ws h v hv
    have h0 : sliceCard ws (v / 65536) = 0 := by
      refine Classical.byContradiction (fun hne => ?_)
      obtain ⟨w, hw, he⟩ := has_of_slice hne
      exact h v hv w hw he.symm
    exact ⟨by omega, fun _ => sparseSlice_of_empty h0⟩
  refine ⟨fun k => ⟨C66_elements (fun x hx' => k.1 x hx' (empty h x hx')),
    C66_elements (fun y hy' => k.2 y hy' (empty (fun y hy x hx e => h x hx y hy e.symm) y hy'))⟩,
    fun k => (C70_suffices hx hy k.1 k.2).2⟩

/-- C70: the union of many lists no two of which have a common slice reads no bitmap as words. -/
theorem C70_apart_many {ps : List (List Nat × Nat)}
    (h : ps.Pairwise (fun p q => ∀ x ∈ p.1, ∀ y ∈ q.1, x / 65536 ≠ y / 65536)) : ManyAligned ps :=
  h.imp (fun k x hx y hy e => absurd e (k x hx y hy))

/-- C70: for a list with itself, intersection and union keep the rules if and only if `decode` does; the
two encodings may be at different addresses. -/
theorem C70_self (hx : Valid xs) :
    (InterAligned xs xs a b ↔ BitmapsAligned xs a ∧ BitmapsAligned xs b) ∧
    (UnionAligned xs xs a b ↔ BitmapsAligned xs a ∧ BitmapsAligned xs b) := by
  have hi : ∀ v ∈ xs, InterReads xs xs v := by
    intro v hv
    refine ⟨slice_has hv, fun hsp => Or.inr ⟨hsp, ?_⟩⟩
    unfold blockCard
    intro h0
    rw [List.length_eq_zero_iff, List.filter_eq_nil_iff] at h0
    exact h0 v hv (by simp)
  refine ⟨⟨fun k => ⟨C66_elements (fun x hx' => k.1 x hx' (hi x hx')),
    C66_elements (fun x hx' => k.2 x hx' (hi x hx'))⟩, fun k => (C70_suffices hx hx k.1 k.2).1⟩,
    ⟨fun k => ⟨C66_elements (fun x hx' => ?_), C66_elements (fun x hx' => ?_)⟩,
    fun k => (C70_suffices hx hx k.1 k.2).2⟩⟩
  · by_cases hf : sliceCard xs (x / 65536) = 65536
    · refine sliceGate_full (i := x / 65536) (valid_slice hx hx') ?_ hf x hx' rfl
      unfold sparseSlice
      rw [decide_eq_false_iff_not]
      omega
    · exact k.1 x hx' ⟨hf, fun h => h⟩
  · by_cases hf : sliceCard xs (x / 65536) = 65536
    · refine sliceGate_full (i := x / 65536) (valid_slice hx hx') ?_ hf x hx' rfl
      unfold sparseSlice
      rw [decide_eq_false_iff_not]
      omega
    · exact k.2 x hx' ⟨hf, fun h => h⟩

/-- C70: the list of C62 cannot be intersected with itself within the rules anywhere, not even with a copy
of it. -/
theorem C70_nowhere (ht : TabOk tab) (hl : StoredAt dbg₁ neverAligned 31 m a bx l)
    (hr : StoredAt dbg₂ neverAligned 31 m b bY r) (x : List Nat) (hs : x.length = 1024) (out : List Nat)
    (hcap : neverAligned.length + 23 ≤ out.length) :
    intersectionAtA dbg tab m a b x out = .error .ub := by
  refine (C70_intersection ht neverAligned_valid neverAligned_valid hl hr
    (Z := neverAligned) ⟨neverAligned_valid.2.1, fun v => (and_self_iff).symm⟩ x hs out hcap).2 ?_
  rintro ⟨-, -, h⟩
  exact C62_nowhere a ((C70_self neverAligned_valid).1.mp h).1

/-- C70: two lists whose first common slice both store as a bitmap, that slice being the first of each,
can be intersected and united only at addresses that are 6 modulo 8. -/
theorem C70_first_bitmaps {i : Nat} (hx : i ∈ denseSlices xs) (hy : i ∈ denseSlices ys)
    (hfx : ∀ j ∈ slicesOf xs, i ≤ j) (hfy : ∀ j ∈ slicesOf ys, i ≤ j)
    (h : InterAligned xs ys a b ∨ UnionAligned xs ys a b) : a % 8 = 6 ∧ b % 8 = 6 := by
  have start : ∀ {zs : List Nat} {c : Nat}, i ∈ denseSlices zs → (∀ j ∈ slicesOf zs, i ≤ j) →
      (c + sliceStart zs i) % 8 = 0 → c % 8 = 6 := by
    intro zs c _ hf this
    have h0 : (slicesOf zs).filter (fun j => decide (j < i)) = [] := by
      rw [List.filter_eq_nil_iff]
      intro j hj
      have := hf j hj
      simp; omega
    unfold sliceStart at this
    rw [h0] at this
    simp only [List.map_nil, List.sum_nil] at this
    omega
  have facts : ∀ {zs : List Nat}, i ∈ denseSlices zs →
      sparseSlice zs i = false ∧ sliceCard zs i ≠ 65536 ∧ sliceCard zs i ≠ 0 := by
    intro zs hz
    simp only [denseSlices, slicesOf, List.mem_filter, Bool.and_eq_true, decide_eq_true_eq,
      Bool.not_eq_true'] at hz
    exact ⟨hz.2.1, hz.2.2, hz.1.2⟩
  obtain ⟨x1, x2, x3⟩ := facts hx
  obtain ⟨y1, y2, y3⟩ := facts hy
  obtain ⟨v, hv, hve⟩ := has_of_slice x3
  obtain ⟨w, hw, hwe⟩ := has_of_slice y3
  have both : BitmapAligned xs a v ∧ BitmapAligned ys b w := by
    rcases h with h | h
    · refine ⟨h.1 v hv ?_, h.2 w hw ?_⟩
      · unfold InterReads; rw [hve]; exact ⟨y3, fun h => by rw [x1] at h; cases h⟩
      · unfold InterReads; rw [hwe]; exact ⟨x3, fun h => by rw [y1] at h; cases h⟩
    · refine ⟨h.1 v hv ?_, h.2 w hw ?_⟩
      · unfold UnionReads; rw [hve]; exact ⟨y2, fun h => by rw [x1] at h; cases h⟩
      · unfold UnionReads; rw [hwe]; exact ⟨x2, fun h => by rw [y1] at h; cases h⟩
  have k1 := both.1.1
  have k2 := both.2.1
  rw [hve] at k1
  rw [hwe] at k2
  exact ⟨start hx hfx (k1 hx), start hy hfy (k2 hy)⟩

end

/-! ## In an index -/

section
variable {dbg dbg' : Bool} {tab : Nat → List Nat} {params : Params} {univ : Nat}
  {lists : List (List Nat)} {offs : List Nat} {seqs : List UInt8} {st : Stats} {m : Mem} {a : Nat}
  {xs ys : List Nat} {i j : Nat}

/-- C70: build a collection, save it, load the file at address `a`: exactly which two of its sequences can
be intersected and united within the rules. -/
theorem C70_index (ht : TabOk tab) (hg : GoodCollection params univ lists)
    (hb : build_index dbg params (collection univ lists) = .ok (offs, seqs, st))
    (hsz : (save_index offs seqs).length < 18446744073709551616)
    (hl : Loaded m a (save_index offs seqs))
    (hr : Readable m (a + (save_index offs seqs).length) 31)
    (hi : (keptLists params lists)[i]? = some xs) (hj : (keptLists params lists)[j]? = some ys)
    {p q : Nat} (hp : p = a + startAt (keptLists params lists) i)
    (hq : q = a + startAt (keptLists params lists) j)
    (x : List Nat) (hx : x.length = 1024) (us : UScratch) (hus : us.Ok)
    (out : List Nat) (hcap : xs.length + ys.length + 23 ≤ out.length) :
    (intersectionAtA dbg' tab m p q x out ≠ .error .ub ↔
      p % 2 = 0 ∧ q % 2 = 0 ∧ InterAligned xs ys p q) ∧
    (unionAtA dbg' m p q us out ≠ .error .ub ↔ p % 2 = 0 ∧ q % 2 = 0 ∧ UnionAligned xs ys p q) := by
  obtain ⟨idx, -, -, -, h⟩ := C18_round_trip hg hb hsz hl hr
  obtain ⟨l, bx, -, hbx, sl⟩ := h i xs hi dbg
  obtain ⟨r, bY, -, hbY, sr⟩ := h j ys hj dbg
  have vx := keptLists_valid hg xs (List.mem_of_getElem? hi)
  have vy := keptLists_valid hg ys (List.mem_of_getElem? hj)
  have hap : p = q ∨ p + bx.length ≤ q ∨ q + bY.length ≤ p := by
    rw [hp, hq, hbx, hbY]
    rcases Nat.lt_trichotomy i j with h | h | h
    · have := startAt_mono hi h; omega
    · subst h; exact Or.inl rfl
    · have := startAt_mono hj h; omega
  rw [← hp] at sl
  rw [← hq] at sr
  exact ⟨C70_intersection_iff ht vx vy sl sr x hx out (by omega),
    C70_union_iff vx vy sl sr hap us hus out hcap⟩

/-- a list that is one slice, stored as a bitmap, takes 8202 bytes -/
theorem encodedSize_one_bitmap {k : Nat} (h1 : slicesOf xs = [k]) (h2 : denseSlices xs = [k]) :
    encodedSize xs = 8202 := by
  have hd : k ∈ denseSlices xs := by rw [h2]; exact List.mem_singleton.mpr rfl
  simp only [denseSlices, slicesOf, List.mem_filter, Bool.and_eq_true, decide_eq_true_eq,
    Bool.not_eq_true'] at hd
  have hs : sliceBytes xs k = 8192 := by
    have h := hd.2.1
    unfold sparseSlice at h
    rw [decide_eq_false_iff_not] at h
    unfold sliceBytes
    rw [if_neg hd.2.2, if_neg h]
  unfold encodedSize
  rw [h1]
  simp only [List.map_cons, List.map_nil, List.sum_cons, List.sum_nil, hs,
    List.length_singleton]
  omega

theorem startAt_next {ks : List (List Nat)} (hi : ks[i]? = some xs) :
    startAt ks (i + 1) = startAt ks i + encodedSize xs := by
  unfold startAt
  rw [List.take_add_one, hi, List.map_append, List.sum_append]
  simp only [Option.toList, List.map_cons, List.map_nil, List.sum_cons, List.sum_nil, Nat.add_zero,
    Nat.add_assoc]

/-- C70: two neighbours in an index that are the same single slice, each stored as a bitmap, can neither
be intersected nor united within the rules, wherever the index is loaded. -/
theorem C70_index_neighbours (ht : TabOk tab) (hg : GoodCollection params univ lists)
    (hb : build_index dbg params (collection univ lists) = .ok (offs, seqs, st))
    (hsz : (save_index offs seqs).length < 18446744073709551616)
    (hl : Loaded m a (save_index offs seqs))
    (hr : Readable m (a + (save_index offs seqs).length) 31)
    (hi : (keptLists params lists)[i]? = some xs) (hj : (keptLists params lists)[i + 1]? = some ys)
    {k : Nat} (x1 : slicesOf xs = [k]) (x2 : denseSlices xs = [k]) (y1 : slicesOf ys = [k])
    (y2 : denseSlices ys = [k]) {p q : Nat} (hp : p = a + startAt (keptLists params lists) i)
    (hq : q = a + startAt (keptLists params lists) (i + 1))
    (x : List Nat) (hx : x.length = 1024) (us : UScratch) (hus : us.Ok)
    (out : List Nat) (hcap : xs.length + ys.length + 23 ≤ out.length) :
    intersectionAtA dbg' tab m p q x out = .error .ub ∧ unionAtA dbg' m p q us out = .error .ub := by
  have h := C70_index (dbg' := dbg') ht hg hb hsz hl hr hi hj hp hq x hx us hus out hcap
  have hn := startAt_next hi
  rw [encodedSize_one_bitmap x1 x2] at hn
  rw [hn] at hq
  have no : ¬ (InterAligned xs ys p q ∨ UnionAligned xs ys p q) := by
    intro hk
    have := C70_first_bitmaps (i := k) (by rw [x2]; simp) (by rw [y2]; simp) (by rw [x1]; simp)
      (by rw [y1]; simp) hk
    clear hn
    subst hp
    revert this hq
    generalize startAt (keptLists params lists) i = t
    omega
  constructor
  · exact Classical.byContradiction (fun hne => no (Or.inl (h.1.mp hne).2.2))
  · exact Classical.byContradiction (fun hne => no (Or.inr (h.2.mp hne).2.2))

end

/-! ## The hypotheses are met -/

-- two lists in one memory, apart
example : ∃ m l r a b bx bY, StoredAt true neverAligned 31 m a bx l ∧
    StoredAt true (List.range 31) 31 m b bY r ∧ a + bx.length ≤ b :=
  stored_pair true neverAligned_valid (valid_of_lt (by decide) (by decide) (by decide)) 31

-- `neverAligned` and `0, …, 30` have only the first block in common: they can be intersected at addresses
-- that are 0 and 4 modulo 8, though `neverAligned` suits no address for `decode`
example : InterAligned neverAligned (List.range 31) 0 4 := by
  have hs : slicesOf neverAligned = [0] := by
    apply sorted_ext (slicesOf_sorted _) (by decide)
    intro i
    rw [mem_slicesOf, List.mem_singleton]
    constructor
    · rintro ⟨-, x, hx, rfl⟩
      have : ∀ x ∈ neverAligned, x / 65536 = 0 := by decide +kernel
      exact this x hx
    · rintro rfl
      exact ⟨by decide, 0, by decide +kernel, by decide⟩
  have hv : Valid (List.range 31) := valid_of_lt (by decide) (by decide) (by decide)
  refine ⟨fun v hv' hr => ?_, fun v _ _ =>
    C66_all_bitmaps hv ((C62_one_block (j := 0) hv (by decide) (by decide)).mpr (by decide)) v⟩
  have h0 : ∀ x ∈ neverAligned, x / 65536 = 0 := by decide +kernel
  have hsp : sparseSlice neverAligned 0 = true := by decide +kernel
  have hvi := h0 v hv'
  have hb : v / 256 = 0 := by
    unfold InterReads at hr
    rw [hvi] at hr
    rcases hr.2 hsp with h | h
    · exact absurd h (by decide +kernel)
    · obtain ⟨w, hw, he⟩ := has_of_block h.2
      have hw := List.mem_range.mp hw
      rw [← he]
      exact Nat.div_eq_of_lt (Nat.lt_trans hw (by decide))
  refine (bitmap_block (i := 0) (k := 0) (by decide) (by decide) hsp hb).mpr (fun _ => ?_)
  have hsb : sliceBlocks neverAligned 0 = 3 := by decide +kernel
  have key : ∀ (zs : List Nat) (c n : Nat), slicesOf zs = [0] → sliceBlocks zs 0 = n →
      (c + 10 + 2 * n) % 8 = 0 → (c + blockStart zs 0 0) % 8 = 0 := by
    intro zs c n h1 h2 h3
    have hf : ([0] : List Nat).filter (fun j => decide (j < 0)) = [] := rfl
    unfold blockStart sliceStart
    rw [h1, h2, hf]
    simp only [List.map_nil, List.sum_nil, List.range_zero, List.length_singleton]
    omega
  exact key _ 0 3 hs hsb (by decide)

-- `0, …, 39999` is one slice that is stored as a bitmap
example : slicesOf (List.range 40000) = [0] ∧ denseSlices (List.range 40000) = [0] := by
  have hc : sliceCard (List.range 40000) 0 = 40000 := by
    unfold sliceCard
    rw [List.filter_eq_self.mpr, List.length_range]
    intro x hx
    have := List.mem_range.mp hx
    rw [beq_iff_eq]
    omega
  have hs : slicesOf (List.range 40000) = [0] := by
    apply sorted_ext (slicesOf_sorted _) (by decide)
    intro i
    rw [mem_slicesOf, List.mem_singleton]
    constructor
    · rintro ⟨-, x, hx, rfl⟩
      have := List.mem_range.mp hx
      omega
    · rintro rfl
      exact ⟨by decide, 0, List.mem_range.mpr (by decide), by decide⟩
  refine ⟨hs, ?_⟩
  have hn : sparseSlice (List.range 40000) 0 = false := by
    unfold sparseSlice
    rw [decide_eq_false_iff_not, hc]
    omega
  unfold denseSlices
  rw [hs, List.filter_cons, hn, hc]
  rfl

example : ∃ offs seqs st m p q, build_index true { size := 1 } (collection 80000 sampleColl)
      = .ok (offs, seqs, st) ∧ Loaded m 4096 (save_index offs seqs) ∧
    p = 4096 + startAt [[3, 5, 300, 70000], [3, 5, 300, 70000]] 0 ∧
    q = 4096 + startAt [[3, 5, 300, 70000], [3, 5, 300, 70000]] 1 ∧
    (intersectionAtA false stdTab m p q (List.replicate 1024 0) (List.replicate 31 0) ≠ .error .ub ↔
      p % 2 = 0 ∧ q % 2 = 0 ∧ InterAligned [3, 5, 300, 70000] [3, 5, 300, 70000] p q) := by
  obtain ⟨offs, seqs, st, m, hb, -, hsz, hl, hr⟩ := sampleColl_ready true
  have hk : keptLists { size := 1 } sampleColl = [[3, 5, 300, 70000], [3, 5, 300, 70000]] := by decide
  have h := C70_index (dbg' := false) (i := 0) (j := 1) (xs := [3, 5, 300, 70000])
    (ys := [3, 5, 300, 70000]) stdTab_ok
    sampleColl_good hb hsz hl hr (by decide) (by decide) rfl rfl (List.replicate 1024 0)
    List.length_replicate UScratch.init UScratch.init_ok (List.replicate 31 0) (by simp)
  rw [hk] at h
  exact ⟨offs, seqs, st, m, _, _, hb, hl, rfl, rfl, h.1⟩

end Sliced
