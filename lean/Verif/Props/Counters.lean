import Verif.Props.Print
import Verif.Props.Tail
import Verif.Props.Cost
/-!
# Every counter of the statistics (C60)
-/
namespace Sliced

/-! ## Specification -/

/-- the numbers of elements in the 256 blocks of slice `i` -/
def blockCards (xs : List Nat) (i : Nat) : List Nat :=
  (List.range 256).map (fun b => blockCard xs (256 * i + b))
/-- at most 30 elements, but some: a block that is stored as a list -/
def few (n : Nat) : Bool := decide (1 ≤ n ∧ n < 31)
/-- at least 31 elements: a block that is stored as a bitmap -/
def many (n : Nat) : Bool := decide (31 ≤ n)
/-- number of blocks of slice `i` up to the last one that has an element -/
def spannedBlocks (xs : List Nat) (i : Nat) : Nat :=
  ((List.range 256).filter (fun b =>
    decide (∃ x ∈ xs, x / 65536 = i ∧ 256 * i + b ≤ x / 256))).length

/-- number of those that have no element -/
def gapBlocks (xs : List Nat) (i : Nat) : Nat :=
  ((List.range 256).filter (fun b => decide
    ((∃ x ∈ xs, x / 65536 = i ∧ 256 * i + b ≤ x / 256) ∧ blockCard xs (256 * i + b) = 0))).length

/-- the slices of `xs` that are stored as blocks -/
def sparseSlices (xs : List Nat) : List Nat := (slicesOf xs).filter (sparseSlice xs)
/-- the slices of `xs` that hold all 65536 values -/
def fullSlices (xs : List Nat) : List Nat :=
  (slicesOf xs).filter (fun i => decide (sliceCard xs i = 65536))
/-- the slices of `xs` that are stored as bitmaps -/
def denseSlices (xs : List Nat) : List Nat :=
  (slicesOf xs).filter (fun i => !sparseSlice xs i && decide (sliceCard xs i ≠ 65536))

/-- sum of `f i` over the slices of `xs` that are stored as blocks -/
def overSparse (f : List Nat → Nat → Nat) (xs : List Nat) : Nat := ((sparseSlices xs).map (f xs)).sum

/-- number of slices up to the largest element -/
def spannedSlices (xs : List Nat) : Nat := xs.getLast?.getD 0 / 65536 + 1
/-- number of those that have no element -/
def gapSlices (xs : List Nat) : Nat :=
  ((List.range (spannedSlices xs)).filter (fun i => decide (sliceCard xs i = 0))).length

/-- The statistics of a collection of the lists `ks`; `rest` is the number of bits outside of the
encodings. -/
def statsOf (ks : List (List Nat)) (rest : Nat) : Stats where
  sequences := ks.length
  integers := (ks.map List.length).sum
  integers_in_sparse_chunks := (ks.map (overSparse sliceCard)).sum
  integers_in_dense_chunks := (ks.map (fun xs => ((denseSlices xs).map (sliceCard xs)).sum)).sum
  integers_in_full_chunks := (ks.map (fun xs => 65536 * (fullSlices xs).length)).sum
  integers_in_sparse_blocks := (ks.map (overSparse fun xs i => ((blockCards xs i).filter few).sum)).sum
  integers_in_dense_blocks := (ks.map (overSparse fun xs i => ((blockCards xs i).filter many).sum)).sum
  chunks := (ks.map spannedSlices).sum
  empty_chunks := (ks.map gapSlices).sum
  sparse_chunks := (ks.map (fun xs => (sparseSlices xs).length)).sum
  very_sparse_chunks := 0
  dense_chunks := (ks.map (fun xs => (denseSlices xs).length)).sum
  full_chunks := (ks.map (fun xs => (fullSlices xs).length)).sum
  blocks := (ks.map (overSparse spannedBlocks)).sum
  empty_blocks := (ks.map (overSparse gapBlocks)).sum
  sparse_blocks := (ks.map (overSparse fun xs i => ((blockCards xs i).filter few).length)).sum
  dense_blocks := (ks.map (overSparse fun xs i => ((blockCards xs i).filter many).length)).sum
  bits := rest + 8 * (ks.map encodedSize).sum
  chunks_header_bits :=
    (ks.map (fun xs => 16 + 64 * (slicesOf xs).length + 64 * ((slicesOf xs).length / 32))).sum
  blocks_header_bits :=
    (ks.map (overSparse fun xs i => 16 * ((blockCards xs i).filter many).length
      + 8 * ((blockCards xs i).filter few).length)).sum
  dense_chunks_bits := (ks.map (fun xs => 65536 * (denseSlices xs).length)).sum
  dense_blocks_bits :=
    (ks.map (overSparse fun xs i => 256 * ((blockCards xs i).filter many).length)).sum
  sparse_blocks_bits :=
    (ks.map (overSparse fun xs i => (((blockCards xs i).filter few).map (fun n => 8 * (n + 1))).sum)).sum
  sparse_blocks_cardinalities :=
    0 :: (List.range 30).map (fun n => (ks.map (storedBlocksWith · (n + 1))).sum)
  num_blocks_in_chunks := (List.range 257).map (fun b => (ks.map (slicesWith · b)).sum)
  num_integers := (List.range 257).map (fun b => (ks.map (integersWith · b)).sum)

/-! ## From the chunks of the builder to the specification -/

variable {dbg : Bool} {xs : List Nat}

theorem lsum_blocksTo (vs : List Nat) {f : Blk → Nat} {g : Nat → Nat} (h0 : g 0 = 0)
    (hf : ∀ b, f b = g b.vals.length) (k : Nat) :
    lsum f (blocksTo vs k) = ((List.range k).map (fun b => g (blockVals vs b).length)).sum := by
  induction k with
  | zero => rfl
  | succ k ih =>
    rw [blocksTo_succ, List.range_succ, List.map_append, List.sum_append, lsum_append, ih]
    congr 1
    by_cases h : blockVals vs k = []
    · simp [h, h0]
    · simp [h, hf]

theorem lsum_slice (xs : List Nat) (i : Nat) {f : Blk → Nat} {g : Nat → Nat} (h0 : g 0 = 0)
    (hf : ∀ b, f b = g b.vals.length) :
    lsum f (blocksTo (chunkVals xs i) 256) = ((blockCards xs i).map g).sum := by
  rw [lsum_blocksTo _ h0 hf, blockCards, List.map_map]
  congr 1
  apply List.map_congr_left
  intro b hb
  rw [blockVals_chunkVals xs i (List.mem_range.mp hb)]
  rfl

/-- a sum over the blocks of the chunks stored as blocks -/
theorem lsum_blk (xs : List Nat) {f : Blk → Nat} {g : Nat → Nat} (h0 : g 0 = 0)
    (hf : ∀ b, f b = g b.vals.length) :
    lsum (Chk.blk f) (chunksOf xs) = overSparse (fun xs i => ((blockCards xs i).map g).sum) xs := by
  unfold overSparse sparseSlices
  rw [lsum_chunksOf xs (g := fun i => if sparseSlice xs i then ((blockCards xs i).map g).sum else 0),
    sum_ite_filter]
  intro c hc
  obtain ⟨k1, k2⟩ := body_slices xs c hc
  cases hsp : sparseSlice xs c.id with
  | true => simp only [Chk.blk, k1 hsp, lsum_slice xs _ h0 hf, if_true]
  | false =>
    have := k2 hsp
    unfold Chk.blk
    cases hbd : c.body with
    | full => rfl
    | dense vs => rfl
    | sparse bs => exact absurd hbd (this bs)

theorem overSparse_congr {f g : List Nat → Nat → Nat} (h : ∀ i ∈ sparseSlices xs, f xs i = g xs i) :
    overSparse f xs = overSparse g xs := by
  unfold overSparse
  rw [List.map_congr_left h]

theorem overSparse_add (f g : List Nat → Nat → Nat) (xs : List Nat) :
    overSparse (fun xs i => f xs i + g xs i) xs = overSparse f xs + overSparse g xs := by
  unfold overSparse
  generalize sparseSlices xs = L
  induction L with
  | nil => rfl
  | cons a L ih => simp only [List.map_cons, List.sum_cons, ih]; omega

theorem overSparse_mul (c : Nat) (f : List Nat → Nat → Nat) (xs : List Nat) :
    overSparse (fun xs i => c * f xs i) xs = c * overSparse f xs := by
  unfold overSparse
  generalize sparseSlices xs = L
  induction L with
  | nil => rfl
  | cons a L ih => simp only [List.map_cons, List.sum_cons, ih, Nat.mul_add]

theorem sum_few (L : List Nat) (h : Nat → Nat) :
    (L.map (fun n => if n = 0 then 0 else if n < 31 then h n else 0)).sum
      = ((L.filter few).map h).sum := by
  rw [← sum_ite_filter]
  congr 1
  apply List.map_congr_left
  intro n _
  unfold few
  by_cases h1 : n = 0
  · subst h1; rfl
  · by_cases h2 : n < 31
    · simp only [if_neg h1, if_pos h2]; rw [if_pos]; simp; omega
    · simp only [if_neg h1, if_neg h2]; rw [if_neg]; simp; omega

theorem sum_many (L : List Nat) (h : Nat → Nat) :
    (L.map (fun n => if n < 31 then 0 else h n)).sum = ((L.filter many).map h).sum := by
  rw [← sum_ite_filter]
  congr 1
  apply List.map_congr_left
  intro n _
  unfold many
  by_cases h2 : n < 31
  · rw [if_pos h2, if_neg (by simp; omega)]
  · rw [if_neg h2, if_pos (by simp; omega)]

theorem blk_few (xs : List Nat) {f : Blk → Nat} (h : Nat → Nat)
    (hf : ∀ b, f b = if b.vals.length < 31 then h b.vals.length else 0) (hw : Valid xs) :
    lsum (Chk.blk f) (chunksOf xs)
      = overSparse (fun xs i => (((blockCards xs i).filter few).map h).sum) xs := by
  have e : ∀ c ∈ chunksOf xs, Chk.blk f c
      = Chk.blk (fun b => if b.vals.length = 0 then 0 else if b.vals.length < 31 then h b.vals.length else 0) c := by
    intro c hc
    have hcw := (chunksOf_wf hw.2.1).2 c hc
    unfold Chk.blk
    cases hbd : c.body with
    | full => rfl
    | dense vs => rfl
    | sparse bs =>
      show lsum _ bs = lsum _ bs
      unfold lsum
      congr 1
      apply List.map_congr_left
      intro b hb
      have hbw : c.body.WF := hcw.2
      rw [hbd] at hbw
      have := (hbw.2.2 b hb).2.1
      have hp : ¬ b.vals.length = 0 := by have := List.length_pos_iff.mpr this; omega
      simp only [hf, if_neg hp]
  have e2 : lsum (Chk.blk f) (chunksOf xs) = lsum (Chk.blk
      (fun b => if b.vals.length = 0 then 0 else if b.vals.length < 31 then h b.vals.length else 0)) (chunksOf xs) := by
    unfold lsum
    rw [List.map_congr_left e]
  rw [e2, lsum_blk xs (g := fun n => if n = 0 then 0 else if n < 31 then h n else 0) rfl (fun _ => rfl)]
  exact overSparse_congr (fun i _ => sum_few _ _)

theorem blk_many (xs : List Nat) {f : Blk → Nat} (h : Nat → Nat)
    (hf : ∀ b, f b = if b.vals.length < 31 then 0 else h b.vals.length) :
    lsum (Chk.blk f) (chunksOf xs)
      = overSparse (fun xs i => (((blockCards xs i).filter many).map h).sum) xs := by
  rw [lsum_blk xs (g := fun n => if n < 31 then 0 else h n) rfl hf]
  exact overSparse_congr (fun i _ => sum_many _ _)

theorem map_id_sum (L : List Nat) : (L.map (fun n => n)).sum = L.sum := by
  rw [List.map_id'']
  intro x; rfl

theorem filter_beforeNth {n : Nat} {p : Nat → Bool} {k : Nat} (hk : k ≤ n)
    (h : ∀ b, b < n → (p b = true ↔ b < k)) : ((List.range n).filter p).length = k := by
  rw [List.filter_congr (q := fun b => decide (b < k)), range_filter_lt hk, List.length_range]
  intro b hb
  rw [Bool.eq_iff_iff, h b (List.mem_range.mp hb), decide_eq_true_eq]

/-- the span of a slice: the blocks up to the one of its last element -/
theorem spannedBlocks_eq (hv : Valid xs) {i : Nat} (hi : chunkVals xs i ≠ []) :
    spanOf (chunkVals xs i) = spannedBlocks xs i := by
  have hs := chunkVals_sorted hv.2.1 i
  obtain ⟨w, hw, hwm, hwx⟩ := getLast_max (lt_le hs) hi
  unfold spanOf spannedBlocks
  rw [hw]
  obtain ⟨hlt, hmem⟩ := mem_chunkVals.mp hwm
  symm
  apply filter_beforeNth (by show w / 256 + 1 ≤ 256; omega)
  intro b _
  rw [decide_eq_true_eq]
  show _ ↔ b < w / 256 + 1
  constructor
  · rintro ⟨x, hx, h1, h2⟩
    have := hwx (x % 65536) (mem_chunkVals.mpr ⟨by omega, by rwa [show i * 65536 + x % 65536 = x by omega]⟩)
    omega
  · intro h
    exact ⟨_, hmem, by omega, by omega⟩

theorem lsum_span (hv : Valid xs) : lsum Chk.span (chunksOf xs) = overSparse spannedBlocks xs := by
  unfold overSparse sparseSlices
  rw [lsum_chunksOf xs (g := fun i => if sparseSlice xs i then spannedBlocks xs i else 0),
    sum_ite_filter]
  intro c hc
  obtain ⟨k1, k2⟩ := body_slices xs c hc
  have hne := (mem_chunksTo.mp hc).2.2
  cases hsp : sparseSlice xs c.id with
  | true =>
    simp only [Chk.span, k1 hsp, if_true]
    rw [blkElems_blocksTo (chunkVals_sorted hv.2.1 _) chunkVals_lt, spannedBlocks_eq hv hne]
  | false =>
    have := k2 hsp
    unfold Chk.span
    cases hbd : c.body with
    | full => rfl
    | dense vs => rfl
    | sparse bs => exact absurd hbd (this bs)

/-- the three classes of a non-empty slice -/
theorem lsum_class (hv : Valid xs) (f : Nat → Nat) :
    lsum (fun c => c.isSparse * f c.card) (chunksOf xs) = ((sparseSlices xs).map (fun i => f (sliceCard xs i))).sum ∧
    lsum (fun c => c.isDense * f c.card) (chunksOf xs) = ((denseSlices xs).map (fun i => f (sliceCard xs i))).sum ∧
    lsum (fun c => c.isFull * f c.card) (chunksOf xs) = ((fullSlices xs).map (fun i => f (sliceCard xs i))).sum := by
  have key : ∀ c ∈ chunksOf xs, c.card = sliceCard xs c.id ∧
      c.isSparse = (if sparseSlice xs c.id then 1 else 0) ∧
      c.isDense = (if !sparseSlice xs c.id && decide (sliceCard xs c.id ≠ 65536) then 1 else 0) ∧
      c.isFull = (if decide (sliceCard xs c.id = 65536) then 1 else 0) := by
    intro c hc
    obtain ⟨-, hb, hne⟩ := mem_chunksTo.mp hc
    have hcard : c.card = sliceCard xs c.id := by
      unfold Chk.card
      rw [hb, bodyOf_vals (chunkVals_sorted hv.2.1 _) chunkVals_lt, chunkVals_length]
    refine ⟨hcard, ?_⟩
    have hl := chunkVals_length xs c.id
    have hc := sparseCost_eq xs c.id
    have hb' := hb
    unfold bodyOf at hb'
    rw [hl, hc] at hb'
    unfold Chk.isSparse Chk.isDense Chk.isFull sparseSlice
    by_cases h1 : sliceCard xs c.id < 32768
    · have h65 : ¬ sliceCard xs c.id = 65536 := by omega
      rw [if_pos h1] at hb'
      by_cases h2 : 8192 ≤ sparseCost xs c.id
      · rw [if_pos h2] at hb'
        simp [hb', h65, Nat.not_lt.mpr h2]
      · rw [if_neg h2] at hb'
        simp [hb', h65, h1, Nat.not_le.mp h2]
    · rw [if_neg h1] at hb'
      by_cases h2 : sliceCard xs c.id = 65536
      · rw [if_pos h2] at hb'
        simp [hb', h2]
      · rw [if_neg h2] at hb'
        simp [hb', h2, h1]
  refine ⟨?_, ?_, ?_⟩
  · rw [lsum_chunksOf xs (g := fun i => if sparseSlice xs i then f (sliceCard xs i) else 0), sum_ite_filter]
    · rfl
    · intro c hc
      obtain ⟨k1, k2, -, -⟩ := key c hc
      rw [k1, k2]; split <;> omega
  · rw [lsum_chunksOf xs (g := fun i => if !sparseSlice xs i && decide (sliceCard xs i ≠ 65536) then
      f (sliceCard xs i) else 0), sum_ite_filter]
    · rfl
    · intro c hc
      obtain ⟨k1, -, k2, -⟩ := key c hc
      rw [k1, k2]; split <;> omega
  · rw [lsum_chunksOf xs (g := fun i => if decide (sliceCard xs i = 65536) then f (sliceCard xs i) else 0),
      sum_ite_filter]
    · rfl
    · intro c hc
      obtain ⟨k1, -, -, k2⟩ := key c hc
      rw [k1, k2]; split <;> omega

theorem sum_map_const (L : List Nat) (c : Nat) : (L.map (fun _ => c)).sum = c * L.length := by
  induction L with
  | nil => rfl
  | cons a L ih => simp only [List.map_cons, List.sum_cons, ih, List.length_cons, Nat.mul_add]; omega

theorem length_split3 (L : List Nat) {p q r : Nat → Bool} {s : Nat → Bool}
    (h : ∀ x ∈ L, (if s x then 1 else 0) = (if p x then 1 else 0) + (if q x then 1 else 0) + (if r x then 1 else 0)) :
    (L.filter s).length = (L.filter p).length + (L.filter q).length + (L.filter r).length := by
  induction L with
  | nil => rfl
  | cons a L ih =>
    have h1 := h a (by simp)
    have h2 := ih (fun x hx => h x (List.mem_cons_of_mem _ hx))
    simp only [List.filter_cons]
    revert h1
    cases s a <;> cases p a <;> cases q a <;> cases r a <;> simp <;> omega

theorem filter_true (L : List Nat) : L.filter (fun _ => true) = L :=
  List.filter_eq_self.mpr (fun _ _ => rfl)
theorem filter_false (L : List Nat) : L.filter (fun _ => false) = [] :=
  List.filter_eq_nil_iff.mpr (fun _ _ => by simp)

/-- every block up to the last one is empty, small, or large -/
theorem spanned_split (xs : List Nat) (i : Nat) :
    spannedBlocks xs i = gapBlocks xs i + ((blockCards xs i).filter few).length
      + ((blockCards xs i).filter many).length := by
  unfold spannedBlocks gapBlocks blockCards
  rw [List.filter_map, List.filter_map, List.length_map, List.length_map]
  apply length_split3
  intro b _
  simp only [Function.comp, decide_eq_true_eq, few, many]
  by_cases h0 : blockCard xs (256 * i + b) = 0
  · simp [h0]
  · have hex : ∃ x ∈ xs, x / 65536 = i ∧ 256 * i + b ≤ x / 256 := by
      unfold blockCard at h0
      obtain ⟨x, hx⟩ := List.length_pos_iff_exists_mem.mp (Nat.pos_of_ne_zero h0)
      rw [List.mem_filter, beq_iff_eq] at hx
      rename_i hb
      have := List.mem_range.mp hb
      exact ⟨x, hx.1, by omega, by omega⟩
    rw [if_pos hex, if_neg (fun h => h0 h.2)]
    by_cases h1 : blockCard xs (256 * i + b) < 31
    · rw [if_pos (by omega), if_neg (by omega)]
    · rw [if_neg (by omega), if_pos (by omega)]

/-- every slice up to the last one is empty or not -/
theorem spannedSlices_split (hv : Valid xs) : spannedSlices xs = gapSlices xs + (slicesOf xs).length := by
  obtain ⟨w, hw, hwm, hwx⟩ := getLast_max (lt_le hv.2.1) hv.1
  have hlt := hv.2.2 w hwm
  have hn : spannedSlices xs = w / 65536 + 1 := by unfold spannedSlices; rw [hw]; rfl
  have e : slicesOf xs = (List.range (spannedSlices xs)).filter (fun i => decide (sliceCard xs i ≠ 0)) := by
    apply sorted_ext (slicesOf_sorted xs) (List.pairwise_lt_range.filter _)
    intro i
    rw [mem_slicesOf, List.mem_filter, List.mem_range, decide_eq_true_eq, hn]
    have hc : sliceCard xs i ≠ 0 ↔ ∃ x ∈ xs, x / 65536 = i := by
      unfold sliceCard
      rw [← Nat.pos_iff_ne_zero, List.length_pos_iff_exists_mem]
      constructor
      · rintro ⟨x, hx⟩
        rw [List.mem_filter, beq_iff_eq] at hx
        exact ⟨x, hx⟩
      · rintro ⟨x, hx⟩
        exact ⟨x, by rwa [List.mem_filter, beq_iff_eq]⟩
    rw [hc]
    constructor
    · rintro ⟨-, x, hx, rfl⟩
      have := hwx x hx
      exact ⟨by omega, x, hx, rfl⟩
    · rintro ⟨h, x, hx, rfl⟩
      have := hwx x hx
      exact ⟨by omega, x, hx, rfl⟩
  have h2 : (List.range (spannedSlices xs)).length = gapSlices xs
      + ((List.range (spannedSlices xs)).filter (fun i => decide (sliceCard xs i ≠ 0))).length := by
    unfold gapSlices
    have := length_split3 (List.range (spannedSlices xs)) (s := fun _ => true)
      (p := fun i => decide (sliceCard xs i = 0)) (q := fun i => decide (sliceCard xs i ≠ 0))
      (r := fun _ => false) (fun i _ => by by_cases h : sliceCard xs i = 0 <;> simp [h])
    rw [filter_true, filter_false] at this
    exact this
  rw [← e, List.length_range] at h2
  exact h2

/-! ## The statistics -/

theorem sum_map_add (f g : List Nat → Nat) (ks : List (List Nat)) :
    (ks.map (fun xs => f xs + g xs)).sum = (ks.map f).sum + (ks.map g).sum := by
  induction ks with
  | nil => rfl
  | cons a L ih => simp only [List.map_cons, List.sum_cons, ih]; omega

theorem sum_map_mul (c : Nat) (f : List Nat → Nat) (ks : List (List Nat)) :
    (ks.map (fun xs => c * f xs)).sum = c * (ks.map f).sum := by
  induction ks with
  | nil => rfl
  | cons a L ih => simp only [List.map_cons, List.sum_cons, ih, Nat.mul_add]

theorem sum_map_zeros (ks : List (List Nat)) : (ks.map (fun _ => 0)).sum = 0 := by
  induction ks with
  | nil => rfl
  | cons a L ih => rw [List.map_cons, List.sum_cons, ih]

theorem fullSlices_card (xs : List Nat) :
    ((fullSlices xs).map (fun i => sliceCard xs i)).sum = 65536 * (fullSlices xs).length := by
  have : (fullSlices xs).map (fun i => sliceCard xs i) = (fullSlices xs).map (fun _ => 65536) :=
    List.map_congr_left (fun i hi => of_decide_eq_true (List.mem_filter.mp hi).2)
  rw [this, sum_map_const]

theorem allBytes_size (ks : List (List Nat)) : (allBytes ks).length = (ks.map encodedSize).sum := by
  unfold allBytes
  induction ks with
  | nil => rfl
  | cons a L ih => simp only [List.flatMap_cons, List.length_append, List.map_cons, List.sum_cons, ih, seqBytes_size]

theorem finish_statsOf {st : Stats} {ks : List (List Nat)} {rest : Nat} (h : IdxStats {} st ks)
    (hv : ∀ xs ∈ ks, Valid xs) :
    { st.finish with bits := rest + 8 * (allBytes ks).length } = statsOf ks rest := by
  have hb := h.balanced balanced_default
  have hc := h.counters
  simp only [counterSums, List.forall_mem_cons, List.not_mem_nil, false_imp_iff, implies_true, and_true,
    Nat.zero_add] at hc
  obtain ⟨c1, c2, c3, c4, c5, c6, c7, c8, c9, c10, c11, c12, c13, c14, c15, c16, c17⟩ := hc
  have e1 : st.integers_in_sparse_chunks = (statsOf ks rest).integers_in_sparse_chunks :=
    c1.trans (sum_map_congr fun xs hx => (lsum_class (hv xs hx) (fun n => n)).1)
  have e2 : st.integers_in_dense_chunks = (statsOf ks rest).integers_in_dense_chunks :=
    c2.trans (sum_map_congr fun xs hx => (lsum_class (hv xs hx) (fun n => n)).2.1)
  have e3 : st.integers_in_full_chunks = (statsOf ks rest).integers_in_full_chunks :=
    c3.trans (sum_map_congr fun xs hx => (lsum_class (hv xs hx) (fun n => n)).2.2.trans (fullSlices_card xs))
  have e4 : st.integers_in_sparse_blocks = (statsOf ks rest).integers_in_sparse_blocks :=
    c4.trans (sum_map_congr fun xs hx => (blk_few xs (fun n => n) (fun _ => rfl) (hv xs hx)).trans
      (overSparse_congr fun i _ => map_id_sum _))
  have e5 : st.integers_in_dense_blocks = (statsOf ks rest).integers_in_dense_blocks :=
    c5.trans (sum_map_congr fun xs hx => (blk_many xs (fun n => n) (fun _ => rfl)).trans
      (overSparse_congr fun i _ => map_id_sum _))
  have ones : ∀ (f : Chk → Nat) cs, lsum f cs = lsum (fun c => f c * 1) cs := by
    intro f cs; simp only [Nat.mul_one]
  have e6 : st.sparse_chunks = (statsOf ks rest).sparse_chunks :=
    c6.trans (sum_map_congr fun xs hx => (ones _ _).trans
      ((lsum_class (hv xs hx) (fun _ => 1)).1.trans (sum_ones _)))
  have e7 : st.very_sparse_chunks = 0 := c7.trans (sum_map_zeros ks)
  have d8 : ∀ xs ∈ ks, lsum Chk.isDense (chunksOf xs) = (denseSlices xs).length := fun xs hx =>
    (ones _ _).trans ((lsum_class (hv xs hx) (fun _ => 1)).2.1.trans (sum_ones _))
  have e8 : st.dense_chunks = (statsOf ks rest).dense_chunks := c8.trans (sum_map_congr d8)
  have e9 : st.full_chunks = (statsOf ks rest).full_chunks :=
    c9.trans (sum_map_congr fun xs hx => (ones _ _).trans
      ((lsum_class (hv xs hx) (fun _ => 1)).2.2.trans (sum_ones _)))
  have e10 : st.blocks = (statsOf ks rest).blocks :=
    c10.trans (sum_map_congr fun xs hx => lsum_span (hv xs hx))
  have e11 : st.sparse_blocks = (statsOf ks rest).sparse_blocks :=
    c11.trans (sum_map_congr fun xs hx => (blk_few xs (fun _ => 1) (fun _ => rfl) (hv xs hx)).trans
      (overSparse_congr fun i _ => sum_ones _))
  have d12 : ∀ xs ∈ ks, lsum (Chk.blk Blk.isDense) (chunksOf xs)
      = overSparse (fun xs i => ((blockCards xs i).filter many).length) xs := fun xs _ =>
    (blk_many xs (fun _ => 1) (fun _ => rfl)).trans (overSparse_congr fun i _ => sum_ones _)
  have e12 : st.dense_blocks = (statsOf ks rest).dense_blocks := c12.trans (sum_map_congr d12)
  have e13 : st.chunks_header_bits = (statsOf ks rest).chunks_header_bits :=
    c13.trans (sum_map_congr fun xs _ => by rw [chunksOf_length, headerBits]; omega)
  have e14 : st.dense_chunks_bits = (statsOf ks rest).dense_chunks_bits :=
    c14.trans (sum_map_congr fun xs hx => by rw [d8 xs hx])
  have e15 : st.dense_blocks_bits = (statsOf ks rest).dense_blocks_bits :=
    c15.trans (sum_map_congr fun xs hx => by rw [d12 xs hx, overSparse_mul])
  have e16 : st.sparse_blocks_bits = (statsOf ks rest).sparse_blocks_bits :=
    c16.trans (sum_map_congr fun xs hx => blk_few xs (fun n => 8 * (n + 1)) (fun _ => rfl) (hv xs hx))
  have e17 : st.sequences = ks.length := by have := h.sequences; simpa using this
  have e18 : st.integers = (ks.map List.length).sum := by have := h.integers; simpa using this
  have e19 : st.chunks = (statsOf ks rest).chunks := by
    have := h.chunks; simp only [Nat.zero_add] at this; exact this
  have e20 : st.dense_blocks * 16 + st.sparse_blocks * 8 = (statsOf ks rest).blocks_header_bits := by
    rw [e12, e11]
    show _ = (ks.map _).sum
    rw [sum_map_congr (fun xs _ => overSparse_add _ _ xs), sum_map_add,
      sum_map_congr (fun xs _ => overSparse_mul _ _ xs), sum_map_mul,
      sum_map_congr (g := fun xs => 8 * overSparse _ xs) (fun xs _ => overSparse_mul _ _ xs), sum_map_mul]
    rw [Nat.mul_comm _ 16, Nat.mul_comm _ 8]
    rfl
  have e21 : st.empty_blocks = (statsOf ks rest).empty_blocks := by
    have hs : (statsOf ks rest).blocks = (statsOf ks rest).empty_blocks
        + (statsOf ks rest).sparse_blocks + (statsOf ks rest).dense_blocks := by
      show (ks.map _).sum = (ks.map _).sum + (ks.map _).sum + (ks.map _).sum
      rw [← sum_map_add, ← sum_map_add]
      refine sum_map_congr fun xs _ => ?_
      rw [← overSparse_add, ← overSparse_add]
      exact overSparse_congr fun i _ => spanned_split xs i
    have := hb.blocks
    omega
  have e22 : st.empty_chunks = (statsOf ks rest).empty_chunks := by
    have hs : (statsOf ks rest).chunks = (statsOf ks rest).empty_chunks
        + (ks.map (fun xs => (slicesOf xs).length)).sum := by
      show (ks.map _).sum = (ks.map _).sum + _
      rw [← sum_map_add]
      exact sum_map_congr fun xs hx => spannedSlices_split (hv xs hx)
    have hs2 : (ks.map (fun xs => (slicesOf xs).length)).sum = (statsOf ks rest).sparse_chunks
        + (statsOf ks rest).dense_chunks + (statsOf ks rest).full_chunks := by
      show _ = (ks.map _).sum + (ks.map _).sum + (ks.map _).sum
      rw [← sum_map_add, ← sum_map_add]
      refine sum_map_congr fun xs _ => ?_
      have := length_split3 (slicesOf xs) (s := fun _ => true) (p := sparseSlice xs)
        (q := fun i => !sparseSlice xs i && decide (sliceCard xs i ≠ 65536))
        (r := fun i => decide (sliceCard xs i = 65536)) (fun i _ => by
          unfold sparseSlice
          by_cases h1 : sliceCard xs i = 65536
          · simp [h1]
          · by_cases h2 : sliceCard xs i < 32768 ∧ sparseCost xs i < 8192 <;> simp [h1, h2])
      rw [filter_true] at this
      exact this
    have := hb.chunks
    omega
  have a1 : st.sparse_blocks_cardinalities = (statsOf ks rest).sparse_blocks_cardinalities := by
    apply List.ext_getElem?
    intro n
    rcases Nat.lt_or_ge n 31 with hn | hn
    · rcases Nat.eq_zero_or_pos n with rfl | hp
      · have h0 : st.sparse_blocks_cardinalities.head?.getD 0 = 0 := c17.trans (by
          rw [sum_map_zeros]; rfl)
        have hl := h.arrays.1
        show _ = some 0
        cases hL : st.sparse_blocks_cardinalities with
        | nil => rw [hL] at hl; simp at hl
        | cons a L => rw [hL] at h0; simpa using h0
      · refine (h.hist n hp hn).trans ((getElem?_replicate_zero_map hn).trans ?_)
        obtain ⟨k, rfl⟩ : ∃ k, n = k + 1 := ⟨n - 1, by omega⟩
        show _ = (0 :: (List.range 30).map _)[k + 1]?
        rw [List.getElem?_cons_succ, List.getElem?_map, List.getElem?_range (by omega)]
        exact congrArg some (sum_map_congr fun xs _ => hist_slices xs hp)
    · rw [List.getElem?_eq_none (by rw [h.arrays.1]; exact hn), List.getElem?_eq_none (by simp [statsOf]; omega)]
  have a2 : st.num_blocks_in_chunks = (statsOf ks rest).num_blocks_in_chunks := by
    apply List.ext_getElem?
    intro n
    rcases Nat.lt_or_ge n 257 with hn | hn
    · refine (h.nb n).trans ((getElem?_replicate_zero_map hn).trans ?_)
      simp only [statsOf]
      rw [List.getElem?_map, List.getElem?_range hn]
      exact congrArg some (sum_map_congr fun xs _ => histBlocks_slices xs n)
    · rw [List.getElem?_eq_none (by rw [h.arrays.2.1]; exact hn), List.getElem?_eq_none (by simp [statsOf]; omega)]
  have a3 : st.num_integers = (statsOf ks rest).num_integers := by
    apply List.ext_getElem?
    intro n
    rcases Nat.lt_or_ge n 257 with hn | hn
    · refine (h.ni n).trans ((getElem?_replicate_zero_map hn).trans ?_)
      simp only [statsOf]
      rw [List.getElem?_map, List.getElem?_range hn]
      exact congrArg some (sum_map_congr fun xs hx => histInts_slices (hv xs hx) n)
    · rw [List.getElem?_eq_none (by rw [h.arrays.2.2]; exact hn), List.getElem?_eq_none (by simp [statsOf]; omega)]
  unfold Stats.finish
  simp only
  rw [e20, e1, e2, e3, e4, e5, e6, e7, e8, e9, e10, e13, e14, e15, e16, e17, e18, e19, e21, e22, a1, a2, a3,
    e11, e12, allBytes_size]
  rfl

variable {params : Params} {univ : Nat} {lists : List (List Nat)} {offs : List Nat}
  {seqs bytes : List UInt8} {st : Stats}

/-- C60: the statistics of an index: every counter and every histogram entry. -/
theorem C60_collection (hg : GoodCollection params univ lists)
    (hb : build_index dbg params (collection univ lists) = .ok (offs, seqs, st)) :
    st = statsOf (keptLists params lists) (128 + 64 * ((keptLists params lists).length + 1)) := by
  obtain ⟨st', e, st1, h, rfl⟩ := build_index_spec (dbg := dbg) hg
  rw [hb] at e
  simp only [Except.ok.injEq, Prod.mk.injEq] at e
  obtain ⟨-, -, rfl⟩ := e
  rw [← finish_statsOf h (keptLists_valid hg)]
  have hr := h.raw
  have h0 : Stats.raw {} = 0 := rfl
  simp only [Stats.finish_bits]
  have : st1.raw + 128 + ((keptLists params lists).length + 1) * 64
      = 128 + 64 * ((keptLists params lists).length + 1) + 8 * (allBytes (keptLists params lists)).length := by omega
  rw [this]

/-- C60: the statistics of a sequence. -/
theorem C60_sequence (hv : Valid xs) (hb : build_sequence dbg xs [] = .ok (st, bytes)) :
    st = statsOf [xs] 128 := by
  obtain ⟨st', k, e, hs, hk⟩ := build_sequence_spec (dbg := dbg) hv []
  rw [hb] at e
  simp only [List.nil_append, Except.ok.injEq, Prod.mk.injEq] at e
  obtain ⟨rfl, -⟩ := e
  have h : IdxStats {} st' [xs] := IdxStats.cons hv hs hk (idxStats_nil (hs.delta
    (by rw [← seqElems_length, seqElems_chunksOf hv])).2.2.2.2.2)
  rw [← finish_statsOf h (by simpa using hv)]
  have hr := h.raw
  have h0 : Stats.raw {} = 0 := rfl
  have : st'.finish.bits = 128 + 8 * (allBytes [xs]).length := by rw [Stats.finish_bits]; omega
  rw [← this]

/-! ## No counter wraps -/

/-- every counter and every histogram entry is below `n` -/
def Stats.Below (n : Nat) (st : Stats) : Prop :=
  (∀ c ∈ [st.sequences, st.integers, st.integers_in_sparse_chunks, st.integers_in_dense_chunks,
    st.integers_in_full_chunks, st.integers_in_sparse_blocks, st.integers_in_dense_blocks, st.chunks,
    st.empty_chunks, st.sparse_chunks, st.very_sparse_chunks, st.dense_chunks, st.full_chunks, st.blocks,
    st.empty_blocks, st.sparse_blocks, st.dense_blocks, st.bits, st.chunks_header_bits,
    st.blocks_header_bits, st.dense_chunks_bits, st.dense_blocks_bits, st.sparse_blocks_bits], c < n) ∧
  (∀ c ∈ st.sparse_blocks_cardinalities, c < n) ∧ (∀ c ∈ st.num_blocks_in_chunks, c < n) ∧
  ∀ c ∈ st.num_integers, c < n

theorem sum_lists_le {ks : List (List Nat)} {f : List Nat → Nat} {k : Nat} (h : ∀ xs ∈ ks, f xs ≤ k) :
    (ks.map f).sum ≤ k * ks.length := by
  induction ks with
  | nil => simp
  | cons a L ih =>
    have h1 := h a (by simp)
    have h2 := ih (fun x hx => h x (List.mem_cons_of_mem _ hx))
    rw [List.map_cons, List.sum_cons, List.length_cons, Nat.mul_add]
    omega

theorem overSparse_le {f : List Nat → Nat → Nat} {k : Nat} (xs : List Nat) (h : ∀ i, f xs i ≤ k) :
    overSparse f xs ≤ k * 65535 := by
  refine Nat.le_trans (sum_le_of (k := k) (fun i _ => h i)) (Nat.mul_le_mul_left _ ?_)
  exact Nat.le_trans (List.length_filter_le _ _) (slicesOf_length_le xs)

theorem slices_filter_le (xs : List Nat) (p : Nat → Bool) : ((slicesOf xs).filter p).length ≤ 65535 :=
  Nat.le_trans (List.length_filter_le _ _) (slicesOf_length_le xs)

theorem filter_range_le (n : Nat) (p : Nat → Bool) : ((List.range n).filter p).length ≤ n := by
  have := List.length_filter_le p (List.range n)
  rwa [List.length_range] at this

theorem encodedSize_max (xs : List Nat) : encodedSize xs ≤ 537403378 := by
  unfold encodedSize
  have h1 := slicesOf_length_le xs
  have h2 := sum_le_of (L := slicesOf xs) (f := fun i => 8 + sliceBytes xs i) (k := 8200)
    (fun i _ => by have := sliceBytes_le xs i; omega)
  omega

theorem blockCards_length (xs : List Nat) (i : Nat) : (blockCards xs i).length = 256 := by
  unfold blockCards; rw [List.length_map, List.length_range]

theorem blockCards_filter_le (xs : List Nat) (i : Nat) (p : Nat → Bool) :
    ((blockCards xs i).filter p).length ≤ 256 :=
  Nat.le_trans (List.length_filter_le _ _) (Nat.le_of_eq (blockCards_length xs i))

theorem blockCards_sum_le (xs : List Nat) (i : Nat) (p : Nat → Bool) {h : Nat → Nat} {k : Nat}
    (hk : ∀ n ∈ blockCards xs i, p n = true → h n ≤ k) :
    (((blockCards xs i).filter p).map h).sum ≤ k * 256 :=
  Nat.le_trans (sum_le_of (k := k) (fun n hn => hk n (List.mem_filter.mp hn).1 (List.mem_filter.mp hn).2))
    (Nat.mul_le_mul_left _ (blockCards_filter_le xs i p))

theorem blockCards_le (hv : Valid xs) (i : Nat) : ∀ n ∈ blockCards xs i, n ≤ 256 := by
  intro n hn
  obtain ⟨b, hb, rfl⟩ := List.mem_map.mp hn
  rw [← blockVals_chunkVals xs i (List.mem_range.mp hb)]
  exact sorted_length_le' (blockVals_sorted (chunkVals_sorted hv.2.1 i) b) blockVals_lt

theorem statsOf_below {ks : List (List Nat)} (hv : ∀ xs ∈ ks, Valid xs) {rest : Nat} {n : Nat}
    (hn : rest + 4299227024 * ks.length < n) : (statsOf ks rest).Below n := by
  have len : ∀ xs ∈ ks, xs.length ≤ 4294901760 := fun xs hx =>
    sorted_length_le' (hv xs hx).2.1 (hv xs hx).2.2
  have card : ∀ xs ∈ ks, ∀ i, sliceCard xs i ≤ 65536 := fun xs hx i => by
    rw [← chunkVals_length]
    exact sorted_length_le' (chunkVals_sorted (hv xs hx).2.1 i) chunkVals_lt
  have key : ∀ f : List Nat → Nat, (∀ xs ∈ ks, f xs ≤ 4299227024) → (ks.map f).sum < n :=
    fun f hf => Nat.lt_of_le_of_lt (sum_lists_le hf) (by omega)
  have key2 : ∀ f : List Nat → Nat → Nat, (∀ xs ∈ ks, ∀ i, f xs i ≤ 65536) →
      (ks.map (overSparse f)).sum < n := fun f hf =>
    key _ (fun xs hx => Nat.le_trans (overSparse_le xs (hf xs hx)) (by decide))
  have span : ∀ xs ∈ ks, spannedSlices xs ≤ 65535 := fun xs hx => by
    have hv := hv xs hx
    obtain ⟨w, hw, hwm, -⟩ := getLast_max (lt_le hv.2.1) hv.1
    have := hv.2.2 w hwm
    unfold spannedSlices
    rw [hw]; show w / 65536 + 1 ≤ _; omega
  have sl : ∀ p : List Nat → Nat → Bool, (ks.map (fun xs => ((slicesOf xs).filter (p xs)).length)).sum < n :=
    fun p => key _ (fun xs _ => Nat.le_trans (slices_filter_le xs _) (by decide))
  have slsum : ∀ xs ∈ ks, ∀ p : Nat → Bool,
      (((slicesOf xs).filter p).map (sliceCard xs)).sum ≤ 4299227024 := fun xs hx p =>
    Nat.le_trans (sum_le_of (k := 65536) (fun i _ => card xs hx i))
      (Nat.le_trans (Nat.mul_le_mul_left _ (slices_filter_le xs _)) (by decide))
  have hfew : ∀ m, few m = true → m ≤ 30 := fun m hm => by
    have := of_decide_eq_true hm; omega
  refine ⟨?_, ?_, ?_, ?_⟩
  · simp only [List.forall_mem_cons, List.not_mem_nil, false_imp_iff, implies_true, and_true]
    refine ⟨?_, ?_, ?_, ?_, ?_, ?_, ?_, ?_, ?_, ?_, ?_, ?_, ?_, ?_, ?_, ?_, ?_, ?_, ?_, ?_, ?_, ?_, ?_⟩
    · show ks.length < n; omega
    · exact key _ (fun xs hx => Nat.le_trans (len xs hx) (by decide))
    · exact key2 _ card
    · exact key _ (fun xs hx => slsum xs hx _)
    · refine key _ (fun xs hx => ?_)
      rw [← fullSlices_card]
      exact slsum xs hx _
    · exact key2 _ (fun xs hx i => by
        rw [← map_id_sum]
        exact Nat.le_trans (blockCards_sum_le xs i few (k := 256) (fun m hm _ => blockCards_le (hv xs hx) i m hm))
          (by decide))
    · exact key2 _ (fun xs hx i => by
        rw [← map_id_sum]
        exact Nat.le_trans (blockCards_sum_le xs i many (k := 256) (fun m hm _ => blockCards_le (hv xs hx) i m hm))
          (by decide))
    · exact key _ (fun xs hx => Nat.le_trans (span xs hx) (by decide))
    · exact key _ (fun xs hx => Nat.le_trans (filter_range_le _ _) (Nat.le_trans (span xs hx) (by decide)))
    · exact sl _
    · show 0 < n; omega
    · exact sl _
    · exact sl _
    · exact key2 _ (fun xs hx i => Nat.le_trans (filter_range_le _ _) (by decide))
    · exact key2 _ (fun xs hx i => Nat.le_trans (filter_range_le _ _) (by decide))
    · exact key2 _ (fun xs hx i => Nat.le_trans (blockCards_filter_le _ _ _) (by decide))
    · exact key2 _ (fun xs hx i => Nat.le_trans (blockCards_filter_le _ _ _) (by decide))
    · have := sum_lists_le (ks := ks) (f := encodedSize) (fun xs _ => encodedSize_max xs)
      show rest + 8 * (ks.map encodedSize).sum < n
      omega
    · exact key _ (fun xs _ => by have := slicesOf_length_le xs; omega)
    · exact key2 _ (fun xs hx i => by
        have := blockCards_filter_le xs i few; have := blockCards_filter_le xs i many; omega)
    · exact key _ (fun xs _ => by
        have : (denseSlices xs).length ≤ 65535 := slices_filter_le xs _
        omega)
    · exact key2 _ (fun xs hx i => by have := blockCards_filter_le xs i many; omega)
    · exact key2 _ (fun xs hx i => Nat.le_trans (blockCards_sum_le xs i few (k := 248)
        (fun m _ hm => by have := hfew m hm; omega)) (by decide))
  · intro c hc
    rcases List.mem_cons.mp hc with rfl | hc
    · omega
    · obtain ⟨k, -, rfl⟩ := List.mem_map.mp hc
      exact key2 (fun xs i => blocksWith xs (k + 1) i) (fun xs hx i =>
        Nat.le_trans (filter_range_le _ _) (by decide))
  · intro c hc
    obtain ⟨k, -, rfl⟩ := List.mem_map.mp hc
    exact sl _
  · intro c hc
    obtain ⟨k, -, rfl⟩ := List.mem_map.mp hc
    exact key _ (fun xs hx => slsum xs hx _)

/-- C60: with at most 4 billion lists no 64-bit counter wraps; so the counters of the code (modelled
without bound) are the ones of `C60_collection`. -/
theorem C60_no_wrap (hg : GoodCollection params univ lists)
    (hk : (keptLists params lists).length ≤ 4290000000)
    (hb : build_index dbg params (collection univ lists) = .ok (offs, seqs, st)) :
    st.Below 18446744073709551616 := by
  rw [C60_collection hg hb]
  exact statsOf_below (keptLists_valid hg) (by omega)

/-- C60, for a sequence. -/
theorem C60_sequence_no_wrap (hv : Valid xs) (hb : build_sequence dbg xs [] = .ok (st, bytes)) :
    st.Below 4299227153 := by
  rw [C60_sequence hv hb]
  exact statsOf_below (by simpa using hv) (by simp)

/-! ## A concrete list -/

theorem c60_slices : slicesOf [0, 5, 700, 66000] = [0, 1] := by
  apply sorted_ext (slicesOf_sorted _) (by decide)
  intro i
  rw [mem_slicesOf]
  simp
  omega

/-- four values in two slices; the first slice spans three blocks, of which one is empty -/
example : ∃ st bytes, build_sequence true [0, 5, 700, 66000] [] = .ok (st, bytes) ∧
    st.integers = 4 ∧ st.chunks = 2 ∧ st.empty_chunks = 0 ∧ st.sparse_chunks = 2 ∧ st.blocks = 5 ∧
    st.empty_blocks = 2 ∧ st.sparse_blocks = 3 ∧ st.integers_in_sparse_blocks = 4 ∧
    st.sparse_blocks_bits = 56 ∧ st.blocks_header_bits = 24 ∧ st.chunks_header_bits = 144 := by
  have hv : Valid [0, 5, 700, 66000] := ⟨by decide, by decide, by decide⟩
  obtain ⟨st', k, e, -⟩ := build_sequence_spec (dbg := true) hv []
  refine ⟨_, _, e, ?_⟩
  rw [C60_sequence hv e]
  have hs : sparseSlices [0, 5, 700, 66000] = [0, 1] := by
    unfold sparseSlices; rw [c60_slices]; decide +kernel
  simp only [statsOf, overSparse, hs, c60_slices, List.map_cons, List.map_nil, List.sum_cons, List.sum_nil]
  decide +kernel

example : ∃ offs seqs st, build_index true { size := 1 } (collection 80000 sampleColl)
      = .ok (offs, seqs, st) ∧ st.Below 18446744073709551616 ∧
    st = statsOf [[3, 5, 300, 70000], [3, 5, 300, 70000]] (128 + 64 * 3) := by
  obtain ⟨offs, seqs, st, m, hb, -⟩ := sampleColl_ready true
  have hk : keptLists { size := 1 } sampleColl = [[3, 5, 300, 70000], [3, 5, 300, 70000]] := by decide
  have h := C60_collection sampleColl_good hb
  rw [hk] at h
  exact ⟨offs, seqs, st, hb, C60_no_wrap sampleColl_good (by rw [hk]; decide) hb, h⟩

end Sliced
