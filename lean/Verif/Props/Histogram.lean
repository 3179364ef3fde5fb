import Verif.Props.Build
/-!
# The histograms in the statistics (C36)
-/
namespace Sliced

/-- slice `i` is one the size specification (`sliceBytes`) writes as blocks -/
def sparseSlice (xs : List Nat) (i : Nat) : Bool :=
  decide (sliceCard xs i < 32768 ∧ sparseCost xs i < 8192)
/-- number of blocks of slice `i` with at least one element -/
def sliceBlocks (xs : List Nat) (i : Nat) : Nat :=
  ((List.range 256).filter (fun b => decide (blockCard xs (256 * i + b) ≠ 0))).length
/-- number of blocks of slice `i` with exactly `n` elements -/
def blocksWith (xs : List Nat) (n i : Nat) : Nat :=
  ((List.range 256).filter (fun b => decide (blockCard xs (256 * i + b) = n))).length

theorem blocksTo_length (vs : List Nat) (k : Nat) : (blocksTo vs k).length
    = ((List.range k).filter (fun b => decide ((blockVals vs b).length ≠ 0))).length := by
  induction k with
  | zero => rfl
  | succ k ih =>
    rw [blocksTo_succ, List.range_succ, List.filter_append, List.length_append, List.length_append, ih]
    congr 1
    by_cases h : blockVals vs k = []
    · simp [h]
    · simp [h]

theorem blocksTo_hist (vs : List Nat) {n : Nat} (hn : 1 ≤ n) (k : Nat) :
    lsum (Blk.hist n) (blocksTo vs k)
      = ((List.range k).filter (fun b => decide ((blockVals vs b).length = n))).length := by
  induction k with
  | zero => rfl
  | succ k ih =>
    rw [blocksTo_succ, List.range_succ, List.filter_append, List.length_append, lsum_append, ih]
    congr 1
    by_cases h : blockVals vs k = []
    · have : ¬ (0 = n) := by omega
      simp [h, this]
    · by_cases h2 : (blockVals vs k).length = n
      · simp [h, h2, Blk.hist]
      · simp [h, h2, Blk.hist]

theorem sliceBlocks_eq (xs : List Nat) (i : Nat) :
    (blocksTo (chunkVals xs i) 256).length = sliceBlocks xs i := by
  rw [blocksTo_length]
  unfold sliceBlocks
  congr 1
  apply List.filter_congr
  intro b hb
  rw [blockVals_chunkVals xs i (List.mem_range.mp hb)]

theorem blocksWith_eq (xs : List Nat) {n : Nat} (hn : 1 ≤ n) (i : Nat) :
    lsum (Blk.hist n) (blocksTo (chunkVals xs i) 256) = blocksWith xs n i := by
  rw [blocksTo_hist _ hn]
  unfold blocksWith
  congr 1
  apply List.filter_congr
  intro b hb
  rw [blockVals_chunkVals xs i (List.mem_range.mp hb)]

/-- the body chosen for a slice, by the size specification -/
theorem bodyOf_sparse (xs : List Nat) (i : Nat) :
    (sparseSlice xs i = true → bodyOf (chunkVals xs i) = .sparse (blocksTo (chunkVals xs i) 256)) ∧
    (sparseSlice xs i = false → ∀ bs, bodyOf (chunkVals xs i) ≠ .sparse bs) := by
  unfold sparseSlice bodyOf
  rw [chunkVals_length, sparseCost_eq]
  constructor
  · intro h
    rw [decide_eq_true_eq] at h
    rw [if_pos h.1, if_neg (by omega)]
  · intro h bs
    rw [decide_eq_false_iff_not] at h
    split
    · rw [if_pos (by omega)]; simp
    · split <;> simp

theorem lsum_chunksOf (xs : List Nat) {f : Chk → Nat} {g : Nat → Nat}
    (h : ∀ c ∈ chunksOf xs, f c = g c.id) :
    lsum f (chunksOf xs) = ((slicesOf xs).map g).sum := by
  rw [← chunksOf_map_id]
  unfold lsum
  rw [List.map_map, List.map_congr_left h]
  rfl

theorem sum_ite_filter (L : List Nat) (p : Nat → Bool) (g : Nat → Nat) :
    (L.map (fun i => if p i then g i else 0)).sum = ((L.filter p).map g).sum := by
  induction L with
  | nil => rfl
  | cons a L ih =>
    simp only [List.map_cons, List.sum_cons, ih, List.filter_cons]
    cases p a <;> simp

theorem sum_ones (L : List Nat) : (L.map (fun _ => 1)).sum = L.length := by
  induction L with
  | nil => rfl
  | cons a L ih => simp only [List.map_cons, List.sum_cons, ih, List.length_cons]; omega

theorem getElem?_replicate_zero_map {n k d : Nat} (h : k < n) :
    (List.replicate n 0)[k]?.map (· + d) = some d := by
  rw [List.getElem?_replicate, if_pos h]; simp

variable {dbg : Bool} {xs : List Nat} {st : Stats} {bytes : List UInt8}

theorem body_slices (xs : List Nat) : ∀ c ∈ chunksOf xs,
    (sparseSlice xs c.id = true → c.body = .sparse (blocksTo (chunkVals xs c.id) 256)) ∧
    (sparseSlice xs c.id = false → ∀ bs, c.body ≠ .sparse bs) := by
  intro c hc
  have h1 := (mem_chunksTo.mp hc).2.1
  rw [h1]
  exact bodyOf_sparse xs c.id

/-- number of slices of `xs` that are stored as `b` blocks -/
def slicesWith (xs : List Nat) (b : Nat) : Nat :=
  ((slicesOf xs).filter (fun i => sparseSlice xs i && sliceBlocks xs i == b)).length
/-- number of integers in slices of `xs` that are stored as `b` blocks -/
def integersWith (xs : List Nat) (b : Nat) : Nat :=
  (((slicesOf xs).filter (fun i => sparseSlice xs i && sliceBlocks xs i == b)).map (sliceCard xs)).sum
/-- number of blocks with `n` elements in slices of `xs` that are stored as blocks -/
def storedBlocksWith (xs : List Nat) (n : Nat) : Nat :=
  (((slicesOf xs).filter (sparseSlice xs)).map (blocksWith xs n)).sum

theorem histBlocks_slices (xs : List Nat) (b : Nat) :
    lsum (Chk.histBlocks b) (chunksOf xs) = slicesWith xs b := by
  unfold slicesWith
  rw [lsum_chunksOf xs (g := fun i => if sparseSlice xs i && sliceBlocks xs i == b then 1 else 0),
    sum_ite_filter, sum_ones]
  intro c hc
  obtain ⟨k1, k2⟩ := body_slices xs c hc
  cases hsp : sparseSlice xs c.id with
  | true =>
    simp only [Chk.histBlocks, k1 hsp, sliceBlocks_eq, Bool.true_and, beq_iff_eq]
  | false =>
    have := k2 hsp
    unfold Chk.histBlocks
    cases hbd : c.body with
    | full => rfl
    | dense vs => rfl
    | sparse bs => exact absurd hbd (this bs)

theorem histInts_slices (hv : Valid xs) (b : Nat) :
    lsum (Chk.histInts b) (chunksOf xs) = integersWith xs b := by
  unfold integersWith
  rw [lsum_chunksOf xs
    (g := fun i => if sparseSlice xs i && sliceBlocks xs i == b then sliceCard xs i else 0),
    sum_ite_filter]
  intro c hc
  obtain ⟨k1, k2⟩ := body_slices xs c hc
  cases hsp : sparseSlice xs c.id with
  | true =>
    simp only [Chk.histInts, k1 hsp, sliceBlocks_eq, Bool.true_and, beq_iff_eq]
    rw [blkElems_blocksTo (chunkVals_sorted hv.2.1 _) chunkVals_lt, chunkVals_length]
  | false =>
    have := k2 hsp
    unfold Chk.histInts
    cases hbd : c.body with
    | full => rfl
    | dense vs => rfl
    | sparse bs => exact absurd hbd (this bs)

theorem hist_slices (xs : List Nat) {n : Nat} (hn1 : 1 ≤ n) :
    lsum (Chk.blk (Blk.hist n)) (chunksOf xs) = storedBlocksWith xs n := by
  unfold storedBlocksWith
  rw [lsum_chunksOf xs (g := fun i => if sparseSlice xs i then blocksWith xs n i else 0),
    sum_ite_filter]
  intro c hc
  obtain ⟨k1, k2⟩ := body_slices xs c hc
  cases hsp : sparseSlice xs c.id with
  | true =>
    simp only [Chk.blk, k1 hsp, blocksWith_eq xs hn1, if_true]
  | false =>
    have := k2 hsp
    unfold Chk.blk
    cases hbd : c.body with
    | full => rfl
    | dense vs => rfl
    | sparse bs => exact absurd hbd (this bs)

/-- C36, for one list -/
theorem C36_histograms (hv : Valid xs) (hb : build_sequence dbg xs [] = .ok (st, bytes)) :
    (∀ b, b ≤ 256 → st.num_blocks_in_chunks[b]? = some (slicesWith xs b)) ∧
    (∀ b, b ≤ 256 → st.num_integers[b]? = some (integersWith xs b)) ∧
    (∀ n, 1 ≤ n → n ≤ 30 → st.sparse_blocks_cardinalities[n]? = some (storedBlocksWith xs n)) := by
  obtain ⟨st', k, h, hs, -⟩ := build_sequence_spec (dbg := dbg) hv []
  rw [hb] at h
  simp only [List.nil_append, Except.ok.injEq, Prod.mk.injEq] at h
  obtain ⟨rfl, rfl⟩ := h
  have hi := hs.inv
  refine ⟨?_, ?_, ?_⟩
  · intro b hb'
    rw [← histBlocks_slices]
    exact Eq.trans (hi.nb b) (getElem?_replicate_zero_map (by omega))
  · intro b hb'
    rw [← histInts_slices hv]
    exact Eq.trans (hi.ni b) (getElem?_replicate_zero_map (by omega))
  · intro n hn1 hn2
    rw [← hist_slices xs hn1]
    exact Eq.trans (hi.hist n hn1 (by omega)) (getElem?_replicate_zero_map (by omega))

example : ∃ st bytes, build_sequence true [3, 5, 300, 70000] [] = .ok (st, bytes) ∧
    st.num_blocks_in_chunks[1]? = some 1 ∧ st.num_blocks_in_chunks[2]? = some 1 ∧
    st.num_integers[2]? = some 3 ∧ st.sparse_blocks_cardinalities[2]? = some 1 ∧
    st.sparse_blocks_cardinalities[1]? = some 2 := by
  obtain ⟨st, bytes, hb, -⟩ := stored_total true small_valid
  have h : (build_sequence true [3, 5, 300, 70000] []).toOption.map
      (fun r => (r.1.num_blocks_in_chunks[1]?, r.1.num_blocks_in_chunks[2]?, r.1.num_integers[2]?,
        r.1.sparse_blocks_cardinalities[2]?, r.1.sparse_blocks_cardinalities[1]?))
      = some (some 1, some 1, some 3, some 1, some 2) := by
    decide +kernel
  rw [hb] at h
  have := Option.some.inj h
  simp only [Prod.mk.injEq] at this
  exact ⟨st, bytes, hb, this⟩

example : ∃ st bytes, build_sequence true [3, 5, 300, 70000] [] = .ok (st, bytes) ∧
    st.num_blocks_in_chunks[2]? = some (slicesWith [3, 5, 300, 70000] 2) ∧
    st.sparse_blocks_cardinalities[1]? = some (storedBlocksWith [3, 5, 300, 70000] 1) := by
  obtain ⟨st, bytes, hb, -⟩ := stored_total true small_valid
  obtain ⟨h1, -, h3⟩ := C36_histograms small_valid hb
  exact ⟨st, bytes, hb, h1 2 (by omega), h3 1 (by omega) (by omega)⟩

end Sliced
