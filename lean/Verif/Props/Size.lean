import Verif.Props.Stored
/-!
# Size of the encoding (C25, C35)

The size is first specified from scratch, by counting the elements of each 64Ki-slice and of each
256-value block; nothing of the model is used in these definitions.
-/
namespace Sliced

/-- number of elements in slice `i` -/
def sliceCard (xs : List Nat) (i : Nat) : Nat := (xs.filter (fun x => x / 65536 == i)).length
/-- number of elements in the `j`-th block of 256 values of the universe -/
def blockCard (xs : List Nat) (j : Nat) : Nat := (xs.filter (fun x => x / 256 == j)).length
/-- bytes of a block with `n` elements, including its two header bytes -/
def blockCost (n : Nat) : Nat := if n = 0 then 0 else if n < 31 then n + 2 else 34
/-- bytes of slice `i` when written as blocks -/
def sparseCost (xs : List Nat) (i : Nat) : Nat :=
  ((List.range 256).map (fun b => blockCost (blockCard xs (256 * i + b)))).sum
/-- bytes of slice `i` (without its 8-byte header) -/
def sliceBytes (xs : List Nat) (i : Nat) : Nat :=
  if sliceCard xs i = 65536 then 0
  else if sliceCard xs i < 32768 ∧ sparseCost xs i < 8192 then sparseCost xs i else 8192
/-- the non-empty slices, in order -/
def slicesOf (xs : List Nat) : List Nat :=
  (List.range 65535).filter (fun i => decide (sliceCard xs i ≠ 0))
/-- the whole encoding -/
def encodedSize (xs : List Nat) : Nat :=
  2 + 8 * ((slicesOf xs).length / 32) + ((slicesOf xs).map (fun i => 8 + sliceBytes xs i)).sum

theorem chunkVals_length (xs : List Nat) (i : Nat) : (chunkVals xs i).length = sliceCard xs i := by
  simp only [chunkVals, sliceCard, List.length_map]

theorem blockVals_chunkVals (xs : List Nat) (i : Nat) {j : Nat} (hj : j < 256) :
    (blockVals (chunkVals xs i) j).length = blockCard xs (256 * i + j) := by
  simp only [blockVals, chunkVals, blockCard, List.length_map, List.filter_map, List.filter_filter]
  congr 1
  apply List.filter_congr
  intro x _
  rw [Bool.eq_iff_iff]
  simp only [Function.comp, Bool.and_eq_true, beq_iff_eq]
  omega

theorem blocks_cost (vs : List Nat) (k : Nat) :
    2 * (blocksTo vs k).length + blkBytes (blocksTo vs k)
      = ((List.range k).map (fun b => blockCost (blockVals vs b).length)).sum := by
  induction k with
  | zero => rfl
  | succ k ih =>
    rw [blocksTo_succ, List.range_succ, List.map_append, List.sum_append, ← ih]
    by_cases h : blockVals vs k = []
    · simp [h, blockCost]
    · have hl := List.length_pos_iff.mpr h
      rw [if_neg h]
      simp only [List.length_append, List.length_cons, List.length_nil, blkBytes, List.map_append,
        List.sum_append, List.map_cons, List.map_nil, List.sum_cons, List.sum_nil, Blk.size,
        bytes_by_cardinality, blockCost]
      rw [if_neg (by omega : ¬ (blockVals vs k).length = 0)]
      split <;> omega

theorem sparseCost_eq (xs : List Nat) (i : Nat) :
    2 * (blocksTo (chunkVals xs i) 256).length + blkBytes (blocksTo (chunkVals xs i) 256)
      = sparseCost xs i := by
  rw [blocks_cost]
  unfold sparseCost
  congr 1
  apply List.map_congr_left
  intro j hj
  rw [blockVals_chunkVals xs i (List.mem_range.mp hj)]

theorem bodyOf_off (xs : List Nat) (i : Nat) : (bodyOf (chunkVals xs i)).off = sliceBytes xs i := by
  have h := sparseCost_eq xs i
  unfold bodyOf sliceBytes
  rw [chunkVals_length, h]
  by_cases h1 : sliceCard xs i < 32768
  · rw [if_pos h1, if_neg (by omega : ¬ sliceCard xs i = 65536)]
    by_cases h2 : 8192 ≤ sparseCost xs i
    · rw [if_pos h2, if_neg (by omega)]; rfl
    · rw [if_neg h2, if_pos ⟨h1, by omega⟩]; exact h
  · rw [if_neg h1]
    by_cases h2 : sliceCard xs i = 65536
    · rw [if_pos h2, if_pos h2]; rfl
    · rw [if_neg h2, if_neg h2, if_neg (by omega)]; rfl

theorem chunksTo_map_id (xs : List Nat) (n : Nat) :
    (chunksTo xs n).map Chk.id = (List.range n).filter (fun i => decide (sliceCard xs i ≠ 0)) := by
  induction n with
  | zero => rfl
  | succ n ih =>
    rw [chunksTo_succ, List.range_succ, List.map_append, List.filter_append, ih]
    congr 1
    have hl := chunkVals_length xs n
    by_cases h : chunkVals xs n = []
    · rw [h] at hl
      simp only [List.length_nil] at hl
      simp [h, ← hl]
    · have := List.length_pos_iff.mpr h
      have h0 : sliceCard xs n ≠ 0 := by omega
      simp [h, h0]

theorem chunksOf_map_id (xs : List Nat) : (chunksOf xs).map Chk.id = slicesOf xs :=
  chunksTo_map_id xs 65535

theorem chunksOf_length (xs : List Nat) : (chunksOf xs).length = (slicesOf xs).length := by
  rw [← chunksOf_map_id, List.length_map]

theorem chunksOf_body {xs : List Nat} {c : Chk} (h : c ∈ chunksOf xs) :
    c.body.off = sliceBytes xs c.id := by
  rw [(mem_chunksTo.mp h).2.1, bodyOf_off]

theorem offSum_chunksOf (xs : List Nat) :
    offSum (chunksOf xs) = ((slicesOf xs).map (sliceBytes xs)).sum := by
  have h : (chunksOf xs).map (fun c => c.body.off) = ((chunksOf xs).map Chk.id).map (sliceBytes xs) := by
    rw [List.map_map]
    exact List.map_congr_left (fun c hc => chunksOf_body hc)
  unfold offSum
  rw [h, chunksOf_map_id]

theorem sum_map_add_const (L : List Nat) (k : Nat) (f : Nat → Nat) :
    (L.map (fun i => k + f i)).sum = k * L.length + (L.map f).sum := by
  induction L with
  | nil => rfl
  | cons a L ih =>
    simp only [List.map_cons, List.sum_cons, List.length_cons, ih, Nat.mul_add]; omega

theorem seqBytes_size (xs : List Nat) : (seqBytes (chunksOf xs)).length = encodedSize xs := by
  unfold encodedSize
  rw [seqBytes_length, chunksOf_length, offSum_chunksOf, sum_map_add_const]
  omega

variable {dbg : Bool} {xs : List Nat} {st : Stats} {bytes : List UInt8}

/-- C35: the number of bytes produced is exactly the one specified above. -/
theorem C35_exact_size (hv : Valid xs) (hb : build_sequence dbg xs [] = .ok (st, bytes)) :
    bytes.length = encodedSize xs := by
  obtain ⟨st', k, e, -⟩ := build_sequence_spec (dbg := dbg) hv []
  rw [hb] at e
  simp only [List.nil_append, Except.ok.injEq, Prod.mk.injEq] at e
  rw [e.2, seqBytes_size]

theorem sliceBytes_le (xs : List Nat) (i : Nat) : sliceBytes xs i ≤ 8192 := by
  unfold sliceBytes; split
  · omega
  · split <;> omega

theorem sum_le_of {L : List Nat} {f : Nat → Nat} {k : Nat} (h : ∀ i ∈ L, f i ≤ k) :
    (L.map f).sum ≤ k * L.length := by
  induction L with
  | nil => simp
  | cons a L ih =>
    have h1 := h a (by simp)
    have h2 := ih (fun i hi => h i (by simp [hi]))
    simp only [List.map_cons, List.sum_cons, List.length_cons, Nat.mul_add]; omega

theorem sum_le_sum {L : List Nat} {f g : Nat → Nat} (h : ∀ i ∈ L, f i ≤ g i) :
    (L.map f).sum ≤ (L.map g).sum := by
  induction L with
  | nil => simp
  | cons a L ih =>
    have h1 := h a (by simp)
    have h2 := ih (fun i hi => h i (by simp [hi]))
    simp only [List.map_cons, List.sum_cons]; omega

theorem blocks_cost_le {bs : List Blk} (h : ∀ b ∈ bs, b.WF) :
    2 * bs.length + blkBytes bs ≤ 3 * (blkElems bs).length := by
  induction bs with
  | nil => simp [blkBytes]
  | cons b bs ih =>
    have h1 := ih (fun c hc => h c (by simp [hc]))
    have h2 := (h b (by simp)).card_pos
    have h3 : b.elems.length = b.vals.length := by simp [Blk.elems]
    have h4 : b.size + 2 ≤ 3 * b.vals.length := by
      unfold Blk.size bytes_by_cardinality; split <;> omega
    simp only [blkBytes, blkElems, List.map_cons, List.sum_cons, List.flatMap_cons,
      List.length_append, List.length_cons] at h1 ⊢
    omega

theorem sparseCost_le {xs : List Nat} (h : xs.Pairwise (· < ·)) (i : Nat) :
    sparseCost xs i ≤ 3 * sliceCard xs i := by
  have hs := chunkVals_sorted h i
  have he := blkElems_blocksTo hs chunkVals_lt
  have hw := blocks_cost_le (blocksTo_wf hs (Nat.le_refl 256)).2
  rwa [he, sparseCost_eq, chunkVals_length] at hw

theorem sliceBytes_le' {xs : List Nat} (h : xs.Pairwise (· < ·)) (i : Nat) :
    sliceBytes xs i ≤ 3 * sliceCard xs i := by
  have := sparseCost_le h i
  unfold sliceBytes; split
  · omega
  · split <;> omega

theorem sum_sliceCard {xs : List Nat} (hv : Valid xs) :
    ((slicesOf xs).map (sliceCard xs)).sum = xs.length := by
  have h := seqElems_length (chunksOf xs)
  rw [seqElems_chunksOf hv] at h
  have h2 : (chunksOf xs).map Chk.card = ((chunksOf xs).map Chk.id).map (sliceCard xs) := by
    rw [List.map_map]
    refine List.map_congr_left (fun c hc => ?_)
    have := mem_chunksTo.mp hc
    show c.card = sliceCard xs c.id
    unfold Chk.card
    rw [this.2.1, bodyOf_vals (chunkVals_sorted hv.2.1 _) chunkVals_lt, chunkVals_length]
  rw [h]
  unfold cardSum
  rw [h2, chunksOf_map_id]

theorem length_le_sum {L : List Nat} {f : Nat → Nat} (h : ∀ i ∈ L, 1 ≤ f i) :
    L.length ≤ (L.map f).sum := by
  induction L with
  | nil => simp
  | cons a L ih =>
    have h1 := h a (by simp)
    have h2 := ih (fun i hi => h i (by simp [hi]))
    simp only [List.map_cons, List.sum_cons, List.length_cons]; omega

theorem slices_le {xs : List Nat} (hv : Valid xs) : (slicesOf xs).length ≤ xs.length := by
  rw [← sum_sliceCard hv]
  apply length_le_sum
  intro i hi
  have := (List.mem_filter.mp hi).2
  rw [decide_eq_true_eq] at this
  omega

/-- `slicesOf` lists the non-empty slices, in order. -/
theorem slicesOf_enumerates (hv : Valid xs) :
    Enumerates (slicesOf xs) (fun i => ∃ x ∈ xs, x / 65536 = i) := by
  refine ⟨(range_sorted 65535).filter _, ?_⟩
  intro i
  unfold slicesOf
  rw [List.mem_filter, List.mem_range]
  have hc : sliceCard xs i ≠ 0 ↔ ∃ x ∈ xs, x / 65536 = i := by
    unfold sliceCard
    rw [Ne, List.length_eq_zero_iff, List.filter_eq_nil_iff]
    constructor
    · intro h
      refine Classical.byContradiction (fun hn => h ?_)
      intro x hx e
      exact hn ⟨x, hx, by simpa using e⟩
    · rintro ⟨x, hx, e⟩ h
      exact h x hx (by simpa using e)
  simp only [decide_eq_true_eq]
  rw [hc]
  constructor
  · exact fun h => h.2
  · rintro ⟨x, hx, e⟩
    have := hv.2.2 x hx
    exact ⟨by omega, x, hx, e⟩

/-- C25: bound in the number `k` of non-empty slices. -/
theorem C25_size_slices (hv : Valid xs) (hb : build_sequence dbg xs [] = .ok (st, bytes))
    {L : List Nat} (hL : Enumerates L (fun i => ∃ x ∈ xs, x / 65536 = i)) :
    bytes.length ≤ 2 + 8 * (L.length / 32) + 8200 * L.length := by
  rw [C35_exact_size hv hb, hL.unique (slicesOf_enumerates hv)]
  unfold encodedSize
  have := sum_le_of (L := slicesOf xs) (f := fun i => 8 + sliceBytes xs i) (k := 8200)
    (fun i _ => by have := sliceBytes_le xs i; omega)
  omega

/-- C25: bound in the number `n` of integers (and a sharper one in `n` and `k`). -/
theorem C25_size_ints (hv : Valid xs) (hb : build_sequence dbg xs [] = .ok (st, bytes)) :
    bytes.length ≤ 2 + 12 * xs.length ∧
    bytes.length ≤ 2 + 8 * ((slicesOf xs).length / 32) + 8 * (slicesOf xs).length + 3 * xs.length := by
  have h1 := slices_le hv
  have h2 := sum_sliceCard hv
  have h3 := sum_le_sum (L := slicesOf xs) (f := sliceBytes xs) (g := fun i => 3 * sliceCard xs i)
    (fun i _ => sliceBytes_le' hv.2.1 i)
  have h4 : ∀ L : List Nat, (L.map (fun i => 3 * sliceCard xs i)).sum = 3 * (L.map (sliceCard xs)).sum := by
    intro L
    induction L with
    | nil => rfl
    | cons a L ih => simp only [List.map_cons, List.sum_cons, ih, Nat.mul_add]
  rw [h4, h2] at h3
  rw [C35_exact_size hv hb]
  unfold encodedSize
  rw [sum_map_add_const]
  omega

/-- C25: slices holding all their 65536 values cost only the 8-byte header. -/
theorem C25_size_full (hv : Valid xs) (hb : build_sequence dbg xs [] = .ok (st, bytes))
    (hfull : ∀ x ∈ xs, ∀ v, v / 65536 = x / 65536 → v ∈ xs)
    {L : List Nat} (hL : Enumerates L (fun i => ∃ x ∈ xs, x / 65536 = i)) :
    bytes.length = 2 + 8 * (L.length / 32) + 8 * L.length := by
  rw [C35_exact_size hv hb, hL.unique (slicesOf_enumerates hv)]
  unfold encodedSize
  rw [sum_map_add_const]
  have : ((slicesOf xs).map (sliceBytes xs)).sum ≤ 0 * (slicesOf xs).length := by
    apply sum_le_of
    intro i hi
    obtain ⟨x, hx, rfl⟩ := ((slicesOf_enumerates hv).2 i).mp hi
    have hc : chunkVals xs (x / 65536) = List.range 65536 := by
      apply sorted_ext (chunkVals_sorted hv.2.1 _) (range_sorted _)
      intro v
      rw [mem_chunkVals, List.mem_range]
      constructor
      · exact fun h => h.1
      · intro h
        exact ⟨h, hfull x hx _ (by omega)⟩
    have hl := chunkVals_length xs (x / 65536)
    rw [hc, List.length_range] at hl
    unfold sliceBytes
    rw [if_pos hl.symm]
    exact Nat.le_refl _
  omega

/-- the hypotheses of `C25_size_full` are met by `k` full slices -/
example : ∃ st bytes, build_sequence true (List.range (65536 * 3)) [] = .ok (st, bytes) ∧
    bytes.length = 2 + 8 * 0 + 8 * 3 := by
  have hv : Valid (List.range (65536 * 3)) := by
    refine ⟨?_, range_sorted _, ?_⟩
    · intro h
      have := congrArg List.length h
      simp at this
    · intro x hx
      rw [List.mem_range] at hx; omega
  obtain ⟨st, bytes, hb, -⟩ := stored_total true hv
  refine ⟨st, bytes, hb, ?_⟩
  refine C25_size_full hv hb ?_ (L := [0, 1, 2]) ⟨by simp, ?_⟩
  · intro x hx v h
    rw [List.mem_range] at hx ⊢; omega
  · intro i
    constructor
    · intro h
      refine ⟨i * 65536, ?_, by omega⟩
      rw [List.mem_range]
      have : i < 3 := by simp at h; omega
      omega
    · rintro ⟨x, hx, rfl⟩
      rw [List.mem_range] at hx
      have : x / 65536 < 3 := by omega
      simp; omega

/-- C35, the builder's choice is not always the smallest: a slice holding exactly its lower half is
written as an 8192-byte bitmap although its blocks would take 4352 bytes. -/
theorem C35_not_minimal :
    sparseCost (List.range 32768) 0 = 4352 ∧ sliceBytes (List.range 32768) 0 = 8192 := by
  have hb : ∀ b, blockCost (blockCard (List.range 32768) b) = if b < 128 then 34 else 0 := by
    intro b
    have hm : (List.range 32768).filter (fun x => x / 256 == b)
        = if b < 128 then List.range' (b * 256) 256 else [] := by
      apply sorted_ext ((range_sorted _).filter _)
      · split
        · exact range'_sorted _ _
        · exact List.Pairwise.nil
      · intro v
        rw [List.mem_filter, List.mem_range, beq_iff_eq]
        split
        · rw [List.mem_range'_1]; omega
        · simp; omega
    unfold blockCard
    rw [hm]
    split
    · rw [List.length_range']; rfl
    · rfl
  have h1 : sparseCost (List.range 32768) 0 = 4352 := by
    unfold sparseCost
    simp only [hb]
    decide +kernel
  refine ⟨h1, ?_⟩
  have h2 : sliceCard (List.range 32768) 0 = 32768 := by
    unfold sliceCard
    rw [List.filter_eq_self.mpr, List.length_range]
    intro x hx
    rw [List.mem_range] at hx
    rw [beq_iff_eq]; omega
  unfold sliceBytes
  rw [h2, if_neg (by omega), if_neg (by omega)]

/-- the exact size of the small example: 2 + (8 + 7) + (8 + 3) bytes -/
example : ∃ st bytes, build_sequence true [3, 5, 300, 70000] [] = .ok (st, bytes) ∧
    bytes.length = encodedSize [3, 5, 300, 70000] ∧ bytes.length = 28 := by
  obtain ⟨st, bytes, hb, -⟩ := stored_total true small_valid
  refine ⟨st, bytes, hb, C35_exact_size small_valid hb, ?_⟩
  have h : (build_sequence true [3, 5, 300, 70000] []).toOption.map (fun r => r.2.length) = some 28 := by
    decide +kernel
  rw [hb] at h
  exact Option.some.inj h

example : ∃ st bytes, build_sequence true [3, 5, 300, 70000] [] = .ok (st, bytes) ∧
    bytes.length ≤ 2 + 8200 * 2 ∧ bytes.length ≤ 50 := by
  obtain ⟨st, bytes, hb, -⟩ := stored_total true small_valid
  exact ⟨st, bytes, hb, C25_size_slices small_valid hb (L := [0, 1]) ⟨by simp, fun v => by simp; omega⟩,
    (C25_size_ints small_valid hb).1⟩

end Sliced
