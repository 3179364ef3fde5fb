import Verif.Proof.Tail
import Verif.Props.Room
import Verif.Props.Locality
import Verif.Props.Index
/-!
# C59: exactly how many bytes after an encoding `decode` reads

C23 says that 31 readable bytes after an encoding are enough, and that fewer are not enough in
general.  Here: for each list, the exact number; joined with the exact number of output slots (C43)
this decides for every list, memory and buffer whether `decode` is defined.  Then the same for the
sequences of a saved index in a memory mapped file, where the bytes after the last sequence are those
up to the end of the page.
-/
namespace Sliced

/-- bytes of the data of a block with `n` elements, without its header -/
def blockData (n : Nat) : Nat := if n < 31 then n else 32

/-- where the data of block `b` of slice `i` begins, for a slice that is stored as blocks, counted
from the start of the encoding: after the headers of all blocks of the slice (two bytes each) and the
data of the blocks before it -/
def blockStart (xs : List Nat) (i b : Nat) : Nat :=
  sliceStart xs i + 2 * sliceBlocks xs i
    + ((List.range b).map (fun j => blockData (blockCard xs (256 * i + j)))).sum

/-- With `pad` bytes behind the encoding, for each block with fewer than 31 elements, in a slice that
is stored as blocks, there are 16 bytes (if it has at most 8 elements) or 40 bytes (if it has more)
from its first byte on. -/
def HasTail (xs : List Nat) (pad : Nat) : Prop :=
  ∀ i b, i < 65535 → b < 256 → sparseSlice xs i = true → 1 ≤ blockCard xs (256 * i + b) →
    blockCard xs (256 * i + b) < 31 →
    blockStart xs i b + (if blockCard xs (256 * i + b) ≤ 8 then 16 else 40) ≤ encodedSize xs + pad

/-! ## From the representation to the specification -/

theorem blkBytes_blocksTo (vs : List Nat) (k : Nat) :
    blkBytes (blocksTo vs k)
      = ((List.range k).map (fun j => blockData (blockVals vs j).length)).sum := by
  induction k with
  | zero => rfl
  | succ k ih =>
    rw [blocksTo_succ, List.range_succ, List.map_append, List.sum_append, ← ih]
    by_cases h : blockVals vs k = []
    · simp [h, blockData]
    · rw [if_neg h]
      simp only [blkBytes, List.map_append, List.sum_append, List.map_cons, List.map_nil,
        List.sum_cons, List.sum_nil, Blk.size, bytes_by_cardinality, blockData]

theorem blocksReach_append (A : List Blk) (b : Blk) :
    blocksReach (A ++ [b]) = max (blocksReach A) (blkBytes A + lane b.vals.length) := by
  induction A with
  | nil =>
    have := lane_ge b.vals.length
    simp only [List.nil_append, blocksReach, blkBytes, List.map_nil, List.sum_nil, Blk.size]
    omega
  | cons a A ih =>
    have hbb : blkBytes (a :: A) = a.size + blkBytes A := by simp [blkBytes]
    rw [List.cons_append]
    simp only [blocksReach]
    rw [ih, hbb]
    omega

theorem blocksReach_le (vs : List Nat) (k p E : Nat) (hp : p ≤ E) :
    p + blocksReach (blocksTo vs k) ≤ E ↔ ∀ b, b < k → 1 ≤ (blockVals vs b).length →
      p + ((List.range b).map (fun j => blockData (blockVals vs j).length)).sum
        + lane (blockVals vs b).length ≤ E := by
  induction k with
  | zero => simp [blocksTo, blocksReach, hp]
  | succ k ih =>
    rw [blocksTo_succ]
    by_cases h : blockVals vs k = []
    · rw [if_pos h, List.append_nil, ih]
      constructor
      · intro hb b hbk h1
        refine hb b ?_ h1
        rcases Nat.lt_or_ge b k with h' | h'
        · exact h'
        · obtain rfl : b = k := by omega
          rw [h] at h1; simp at h1
      · intro hb b hbk h1
        exact hb b (by omega) h1
    · rw [if_neg h, blocksReach_append, blkBytes_blocksTo]
      have hpos := List.length_pos_iff.mpr h
      constructor
      · intro hle b hbk h1
        rcases Nat.lt_or_ge b k with h' | h'
        · exact ih.mp (by omega) b h' h1
        · obtain rfl : b = k := by omega
          simp only at hle
          omega
      · intro hb
        have e1 := ih.mpr (fun b hbk h1 => hb b (by omega) h1)
        have e2 := hb k (by omega) (by omega)
        simp only
        omega

theorem chunksReach_append (A : List Chk) (c : Chk) :
    chunksReach (A ++ [c]) = max (chunksReach A) (offSum A + c.body.reach) := by
  induction A with
  | nil =>
    have := c.body.reach_ge
    simp only [List.nil_append, chunksReach, offSum_nil]
    omega
  | cons a A ih =>
    rw [List.cons_append]
    simp only [chunksReach]
    rw [ih, offSum_cons]
    omega

theorem range_filter_lt {n i : Nat} (h : i ≤ n) :
    (List.range n).filter (fun j => decide (j < i)) = List.range i := by
  obtain ⟨k, rfl⟩ : ∃ k, n = i + k := ⟨n - i, by omega⟩
  rw [List.range_add, List.filter_append, List.filter_eq_self.mpr, List.filter_eq_nil_iff.mpr,
    List.append_nil]
  · intro j hj
    obtain ⟨d, -, rfl⟩ := List.mem_map.mp hj
    simp
  · intro j hj
    simpa using hj

theorem offSum_chunksTo (xs : List Nat) {i : Nat} (hi : i ≤ 65535) :
    offSum (chunksTo xs i)
      = (((slicesOf xs).filter (fun j => decide (j < i))).map (sliceBytes xs)).sum := by
  have h1 : (slicesOf xs).filter (fun j => decide (j < i)) = (chunksTo xs i).map Chk.id := by
    rw [chunksTo_map_id, slicesOf, List.filter_filter, ← range_filter_lt hi, List.filter_filter]
    refine List.filter_congr (fun j _ => ?_)
    rw [Bool.and_comm]
  have h2 : (chunksTo xs i).map (fun c => c.body.off)
      = ((chunksTo xs i).map Chk.id).map (sliceBytes xs) := by
    rw [List.map_map]
    refine List.map_congr_left (fun d hd => ?_)
    rw [(mem_chunksTo.mp hd).2.1, bodyOf_off]; rfl
  rw [h1, ← h2]
  rfl

theorem chunksReach_le (xs : List Nat) (n : Nat) (hn : n ≤ 65535) (p E : Nat) (hp : p ≤ E) :
    p + chunksReach (chunksTo xs n) ≤ E ↔ ∀ i, i < n → 1 ≤ (chunkVals xs i).length →
      p + offSum (chunksTo xs i) + (bodyOf (chunkVals xs i)).reach ≤ E := by
  induction n with
  | zero => simp [chunksTo, chunksReach, hp]
  | succ k ih =>
    have ih := ih (by omega)
    rw [chunksTo_succ]
    by_cases h' : chunkVals xs k = []
    · rw [if_pos h', List.append_nil, ih]
      constructor
      · intro hb b hbk h1
        refine hb b ?_ h1
        rcases Nat.lt_or_ge b k with h'' | h''
        · exact h''
        · obtain rfl : b = k := by omega
          rw [h'] at h1; simp at h1
      · intro hb b hbk h1
        exact hb b (by omega) h1
    · rw [if_neg h', chunksReach_append]
      have hpos := List.length_pos_iff.mpr h'
      constructor
      · intro hle b hbk h1
        rcases Nat.lt_or_ge b k with h'' | h''
        · exact ih.mp (by omega) b h'' h1
        · obtain rfl : b = k := by omega
          simp only at hle
          omega
      · intro hb
        have e1 := ih.mpr (fun b hbk h1 => hb b (by omega) h1)
        have e2 := hb k (by omega) (by omega)
        simp only
        omega

theorem offSum_le_total (xs : List Nat) {i : Nat} (hi : i < 65535) (hc : chunkVals xs i ≠ []) :
    offSum (chunksTo xs i) + (bodyOf (chunkVals xs i)).off ≤ offSum (chunksOf xs) := by
  have hm : i ∈ slicesOf xs := by
    have := List.length_pos_iff.mpr hc
    rw [chunkVals_length] at this
    simp only [slicesOf, List.mem_filter, List.mem_range, decide_eq_true_eq]
    exact ⟨hi, by omega⟩
  have h := sum_filter_lt (slicesOf_sorted xs) (f := sliceBytes xs) hm hi
  rw [offSum_chunksTo xs (by omega), bodyOf_off]
  refine Nat.le_trans h ?_
  rw [← offSum_chunksTo xs (Nat.le_refl _)]
  exact Nat.le_refl _

theorem reach_of_not_sparse {xs : List Nat} {i : Nat} (hs : sparseSlice xs i = false) :
    (bodyOf (chunkVals xs i)).reach = (bodyOf (chunkVals xs i)).off := by
  have hb := (bodyOf_sparse xs i).2 hs
  cases h : bodyOf (chunkVals xs i) with
  | sparse bs => exact absurd h (hb bs)
  | _ => rfl

theorem sum_range_le {f : Nat → Nat} {b n : Nat} (h : b < n) :
    ((List.range b).map f).sum + f b ≤ ((List.range n).map f).sum := by
  induction n with
  | zero => omega
  | succ n ih =>
    rw [List.range_succ, List.map_append, List.sum_append]
    simp only [List.map_cons, List.map_nil, List.sum_cons, List.sum_nil]
    rcases Nat.lt_or_ge b n with h' | h'
    · have := ih h'; omega
    · obtain rfl : b = n := by omega
      omega

/-- the bytes of a slice that is stored as blocks: headers, then data -/
theorem off_sparse {xs : List Nat} {i : Nat} (hs : sparseSlice xs i = true) :
    (bodyOf (chunkVals xs i)).off = 2 * sliceBlocks xs i
      + ((List.range 256).map (fun j => blockData (blockVals (chunkVals xs i) j).length)).sum := by
  rw [(bodyOf_sparse xs i).1 hs]
  simp only [Body.off]
  rw [sliceBlocks_eq, blkBytes_blocksTo]

theorem blockStart_eq {xs : List Nat} {i b : Nat} (hi : i < 65535) (hb : b ≤ 256) :
    blockStart xs i b = dirSize (chunksOf xs).length + offSum (chunksTo xs i) + 2 * sliceBlocks xs i
      + ((List.range b).map (fun j => blockData (blockVals (chunkVals xs i) j).length)).sum := by
  unfold blockStart sliceStart dirSize
  rw [offSum_chunksTo xs (by omega), chunksOf_length]
  congr 2
  refine List.map_congr_left (fun j hj => ?_)
  have := List.mem_range.mp hj
  rw [blockVals_chunkVals xs i (by omega)]

theorem encodedSize_eq (xs : List Nat) :
    encodedSize xs = dirSize (chunksOf xs).length + offSum (chunksOf xs) := by
  rw [← seqBytes_size, seqBytes_split, List.length_append, dirBytes_length, chunksData_length]

/-- the bytes that are read for one slice, in the representation and in the specification -/
theorem slice_tail_iff (xs : List Nat) (pad : Nat) {i : Nat} (hi : i < 65535) (hne : chunkVals xs i ≠ []) :
    offSum (chunksTo xs i) + (bodyOf (chunkVals xs i)).reach ≤ offSum (chunksOf xs) + pad ↔
      ∀ b, b < 256 → sparseSlice xs i = true → 1 ≤ blockCard xs (256 * i + b) →
        blockCard xs (256 * i + b) < 31 →
        blockStart xs i b + (if blockCard xs (256 * i + b) ≤ 8 then 16 else 40) ≤ encodedSize xs + pad := by
  have htot := offSum_le_total xs hi hne
  constructor
  · intro h' b hb hsp h1 h31
    have hbv := blockVals_chunkVals xs i hb
    have hoff := off_sparse hsp
    rw [(bodyOf_sparse xs i).1 hsp] at h'
    simp only [Body.reach] at h'
    rw [sliceBlocks_eq, ← Nat.add_assoc] at h'
    have := (blocksReach_le (chunkVals xs i) 256 _ _ (by omega)).mp h' b hb (by rw [hbv]; exact h1)
    rw [blockStart_eq hi (by omega), encodedSize_eq]
    rw [hbv] at this
    unfold lane at this
    rw [if_pos h31] at this
    omega
  · intro ht
    cases hsp : sparseSlice xs i with
    | false =>
      rw [reach_of_not_sparse hsp]
      omega
    | true =>
      have hoff := off_sparse hsp
      rw [(bodyOf_sparse xs i).1 hsp]
      simp only [Body.reach]
      rw [sliceBlocks_eq, ← Nat.add_assoc]
      refine (blocksReach_le (chunkVals xs i) 256 _ _ (by omega)).mpr ?_
      intro b hb h1
      have hbv := blockVals_chunkVals xs i hb
      by_cases h31 : (blockVals (chunkVals xs i) b).length < 31
      · have := ht b hb hsp (by omega) (by omega)
        rw [blockStart_eq hi (by omega), encodedSize_eq, ← hbv] at this
        unfold lane
        rw [if_pos h31]
        omega
      · have hl : lane (blockVals (chunkVals xs i) b).length
            = blockData (blockVals (chunkVals xs i) b).length := by
          unfold lane blockData; rw [if_neg h31, if_neg h31]
        have := sum_range_le (f := fun j => blockData (blockVals (chunkVals xs i) j).length) hb
        rw [hl]
        omega

/-- the bytes in the representation are the bytes of the specification -/
theorem hasTail_iff (xs : List Nat) (pad : Nat) :
    chunksReach (chunksOf xs) ≤ offSum (chunksOf xs) + pad ↔ HasTail xs pad := by
  have key := chunksReach_le xs 65535 (Nat.le_refl _) 0 (offSum (chunksOf xs) + pad) (Nat.zero_le _)
  rw [Nat.zero_add] at key
  conv => lhs; lhs; unfold chunksOf
  rw [key]
  constructor
  · intro hk i b hi hb hsp h1 h31
    have hcv : chunkVals xs i ≠ [] := by
      intro h
      have hbv := blockVals_chunkVals xs i hb
      rw [h] at hbv
      simp [blockVals] at hbv
      omega
    have h' := hk i hi (List.length_pos_iff.mpr hcv)
    rw [Nat.zero_add] at h'
    exact (slice_tail_iff xs pad hi hcv).mp h' b hb hsp h1 h31
  · intro ht i hi hcv
    rw [Nat.zero_add]
    exact (slice_tail_iff xs pad hi (List.length_pos_iff.mp hcv)).mpr
      (fun b hb hsp h1 h31 => ht i b hi hb hsp h1 h31)

/-! ## The theorems -/

variable {dbg dbg' : Bool} {xs : List Nat} {m : Mem} {a pad : Nat} {bytes : List UInt8} {s : SSeq}

theorem StoredAt.fence (hs : StoredAt dbg xs pad m a bytes s)
    (hend : m (a + bytes.length + pad) = none) : Fence m a (a + bytes.length + pad) where
  read q h1 h2 := by
    have h := hs.2.1.readable.append hs.2.2.1 (q - a) (by omega)
    rwa [show a + (q - a) = q by omega] at h
  stop := hend

theorem StoredAt.places (hv : Valid xs) (hs : StoredAt dbg xs pad m a bytes s) :
    bytes.length = encodedSize xs ∧ s.data = a + dirSize (chunksOf xs).length := by
  obtain ⟨⟨st, hb⟩, hl, -, e⟩ := hs
  have hsz := C35_exact_size hv hb
  refine ⟨hsz, ?_⟩
  obtain ⟨st', k, e', -⟩ := build_sequence_spec (dbg := dbg) hv []
  rw [hb, List.nil_append] at e'
  obtain ⟨-, rfl⟩ := Prod.mk.inj (Except.ok.inj e')
  rw [seqBytes_split] at hl
  obtain ⟨s', es, -, hd⟩ := seqAtP_of_loaded (B := fun _ _ => True) (chunksOf_wf hv.2.1)
    (chunksOf_small hv.2.1) (chunksOf_ne_nil hv) hl.append.1 (fun _ _ _ _ => trivial)
  rw [e] at es
  cases es
  exact hd

/-- C59: the encoding of any list, `pad` readable bytes behind it and then a byte that cannot be
read; any output buffer.  `decode` writes the list if the buffer has room and the encoding a tail,
and is undefined in all other cases. -/
theorem C59_decode (hv : Valid xs) (hs : StoredAt dbg xs pad m a bytes s)
    (hend : m (a + bytes.length + pad) = none) (out : List Nat) :
    (HasRoom xs out.length ∧ HasTail xs pad → ∃ out', s.decode dbg' m out 0 = .ok (xs.length, out') ∧
      Wrote out 0 xs 23 out') ∧
    (¬ (HasRoom xs out.length ∧ HasTail xs pad) → s.decode dbg' m out 0 = .error .ub) := by
  obtain ⟨hlen, hd⟩ := hs.places hv
  rw [encodedSize_eq] at hlen
  have h0 : Stored dbg xs 0 m s := by
    obtain ⟨⟨st, h1⟩, h2, h3, h4⟩ := hs
    exact ⟨a, st, bytes, h1, h2, fun i hi => absurd hi (Nat.not_lt_zero i), h4⟩
  have h := SSeq.decode_tail (dbg := dbg') (hs.fence hend) (h0.repr hv) (out := out) (p := 0)
    (by omega) (by omega) (Nat.zero_le _)
  have hiff : s.data + chunksReach (chunksOf xs) ≤ a + bytes.length + pad ↔ HasTail xs pad := by
    rw [← hasTail_iff]
    omega
  rw [seqElems_chunksOf hv, Nat.zero_add, hasRoom_iff hv, hiff] at h
  exact h

/-- C59: the same with the necessary and sufficient condition in one line. -/
theorem C59_decode_iff (hv : Valid xs) (hs : StoredAt dbg xs pad m a bytes s)
    (hend : m (a + bytes.length + pad) = none) (out : List Nat) :
    s.decode dbg' m out 0 ≠ .error .ub ↔ HasRoom xs out.length ∧ HasTail xs pad := by
  have h := C59_decode (dbg' := dbg') hv hs hend out
  constructor
  · intro hok
    exact Classical.byContradiction (fun hn => hok (h.2 hn))
  · intro hr hub
    obtain ⟨o, e, -⟩ := h.1 hr
    rw [e] at hub
    cases hub

/-- C59: more bytes do no harm. -/
theorem C59_mono {pad' : Nat} (h : HasTail xs pad) (hp : pad ≤ pad') : HasTail xs pad' := by
  intro i b hi hb hsp h1 h31
  have := h i b hi hb hsp h1 h31
  omega

/-- the data of a block is inside the encoding -/
theorem blockStart_le {i b : Nat} (hi : i < 65535) (hb : b < 256) (hsp : sparseSlice xs i = true)
    (h1 : 1 ≤ blockCard xs (256 * i + b)) :
    blockStart xs i b + blockData (blockCard xs (256 * i + b)) ≤ sliceStart xs i + sliceBytes xs i ∧
    sliceStart xs i + sliceBytes xs i ≤ encodedSize xs := by
  have hbv := blockVals_chunkVals xs i hb
  have hcv : chunkVals xs i ≠ [] := by
    intro h
    rw [h] at hbv
    simp [blockVals] at hbv
    omega
  have htot := offSum_le_total xs hi hcv
  have hoff := off_sparse hsp
  have hsum := sum_range_le (f := fun j => blockData (blockVals (chunkVals xs i) j).length) hb
  have hst : sliceStart xs i = dirSize (chunksOf xs).length + offSum (chunksTo xs i) := by
    unfold sliceStart dirSize
    rw [offSum_chunksTo xs (by omega), chunksOf_length]
  rw [blockStart_eq hi (by omega), encodedSize_eq, hst, ← bodyOf_off, ← hbv]
  omega

/-- C59: 31 bytes are enough for every list. -/
theorem C59_31 (xs : List Nat) : HasTail xs 31 := by
  intro i b hi hb hsp h1 h31
  obtain ⟨h2, h3⟩ := blockStart_le hi hb hsp h1
  unfold blockData at h2
  rw [if_pos h31] at h2
  split <;> omega

/-- C59: no byte is needed if the last slices that are stored as blocks are followed by a slice that
is stored as a bitmap. -/
theorem C59_bitmap {j : Nat} (hj : j < 65535) (h0 : sliceCard xs j ≠ 0)
    (hf : sliceCard xs j ≠ 65536) (hn : sparseSlice xs j = false)
    (hlast : ∀ i, i < 65535 → sparseSlice xs i = true → sliceCard xs i ≠ 0 → i < j) :
    HasTail xs 0 := by
  intro i b hi hb hsp h1 h31
  obtain ⟨h2, h3⟩ := blockStart_le hi hb hsp h1
  have hbv := blockVals_chunkVals xs i hb
  have hc : sliceCard xs i ≠ 0 := by
    rw [← chunkVals_length]
    intro h
    rw [List.length_eq_zero_iff] at h
    rw [h] at hbv
    simp [blockVals] at hbv
    omega
  have hij := hlast i hi hsp hc
  have hi' : i ∈ slicesOf xs := by
    simp only [slicesOf, List.mem_filter, List.mem_range, decide_eq_true_eq]; exact ⟨hi, hc⟩
  have hj' : j ∈ slicesOf xs := by
    simp only [slicesOf, List.mem_filter, List.mem_range, decide_eq_true_eq]; exact ⟨hj, h0⟩
  have h4 := sliceStart_lt hi' hij
  have h5 : sliceStart xs j + sliceBytes xs j ≤ encodedSize xs := by
    have hcv : chunkVals xs j ≠ [] := by
      intro h
      rw [← chunkVals_length, h] at h0
      exact h0 rfl
    have htot := offSum_le_total xs hj hcv
    have hst : sliceStart xs j = dirSize (chunksOf xs).length + offSum (chunksTo xs j) := by
      unfold sliceStart dirSize
      rw [offSum_chunksTo xs (by omega), chunksOf_length]
    rw [encodedSize_eq, hst, ← bodyOf_off]
    omega
  have h6 : sliceBytes xs j = 8192 := by
    unfold sliceBytes
    rw [if_neg hf, if_neg]
    unfold sparseSlice at hn
    simpa using hn
  unfold blockData at h2
  rw [if_pos h31] at h2
  split <;> omega

/-! ### Lists inside one block -/

theorem eq_singleton {L : List Nat} {k : Nat} (hs : L.Pairwise (· < ·)) (hk : k ∈ L)
    (h : ∀ x ∈ L, x = k) : L = [k] := by
  match L, hs, hk, h with
  | [x], _, _, h => rw [h x (by simp)]
  | x :: y :: t, hs, _, h =>
    have h1 := h x (by simp)
    have h2 := h y (by simp)
    have := (List.pairwise_cons.mp hs).1 y (by simp)
    omega

theorem sum_range_single {f : Nat → Nat} {k n : Nat} (hk : k < n) (h : ∀ j, j < n → j ≠ k → f j = 0) :
    ((List.range n).map f).sum = f k := by
  induction n with
  | zero => omega
  | succ n ih =>
    rw [List.range_succ, List.map_append, List.sum_append]
    simp only [List.map_cons, List.map_nil, List.sum_cons, List.sum_nil]
    rcases Nat.lt_or_ge k n with h' | h'
    · rw [ih h' (fun j hj => h j (by omega)), h n (by omega) (by omega), Nat.add_zero, Nat.add_zero]
    · obtain rfl : k = n := by omega
      have : (List.range k).map f = (List.range k).map (fun _ => 0) :=
        List.map_congr_left (fun j hj => h j (by have := List.mem_range.mp hj; omega)
          (by have := List.mem_range.mp hj; omega))
      rw [this, sum_zeros]
      omega

section OneBlock
variable {j : Nat}

theorem blockCard_block (h : ∀ x ∈ xs, x / 256 = j) (k : Nat) :
    blockCard xs k = if k = j then xs.length else 0 := by
  unfold blockCard
  split
  · rename_i hk
    rw [List.filter_eq_self.mpr]
    intro x hx
    rw [beq_iff_eq, h x hx, hk]
  · rename_i hk
    rw [List.length_eq_zero_iff, List.filter_eq_nil_iff]
    intro x hx
    rw [beq_iff_eq, h x hx]
    omega

theorem sliceCard_block (h : ∀ x ∈ xs, x / 256 = j) (i : Nat) :
    sliceCard xs i = if i = j / 256 then xs.length else 0 := by
  unfold sliceCard
  split
  · rename_i hk
    rw [List.filter_eq_self.mpr]
    intro x hx
    have := h x hx
    rw [beq_iff_eq]
    omega
  · rename_i hk
    rw [List.length_eq_zero_iff, List.filter_eq_nil_iff]
    intro x hx
    have := h x hx
    rw [beq_iff_eq]
    omega

theorem slicesOf_block (hv : Valid xs) (h : ∀ x ∈ xs, x / 256 = j) : slicesOf xs = [j / 256] := by
  have hpos := List.length_pos_iff.mpr hv.1
  obtain ⟨x, t, rfl⟩ : ∃ x t, xs = x :: t := by
    cases xs with
    | nil => exact absurd rfl hv.1
    | cons x t => exact ⟨x, t, rfl⟩
  have hx := h x (by simp)
  have hb := hv.2.2 x (by simp)
  refine eq_singleton (slicesOf_sorted _) ?_ ?_
  · simp only [slicesOf, List.mem_filter, List.mem_range, decide_eq_true_eq]
    refine ⟨by omega, ?_⟩
    rw [sliceCard_block h, if_pos rfl]
    omega
  · intro i hi
    simp only [slicesOf, List.mem_filter, List.mem_range, decide_eq_true_eq] at hi
    have h2 := hi.2
    rw [sliceCard_block h] at h2
    split at h2
    · assumption
    · exact absurd rfl h2

theorem sparseCost_block (hne : xs ≠ []) (h : ∀ x ∈ xs, x / 256 = j) (hn : xs.length < 31) :
    sparseCost xs (j / 256) = xs.length + 2 := by
  have hpos := List.length_pos_iff.mpr hne
  unfold sparseCost
  rw [sum_range_single (k := j % 256) (by omega)]
  · simp only [blockCard_block h]
    rw [if_pos (by omega)]
    unfold blockCost
    rw [if_neg (by omega), if_pos hn]
  · intro b hb hbj
    simp only [blockCard_block h]
    rw [if_neg (by omega)]
    rfl

theorem sparseSlice_block (hne : xs ≠ []) (h : ∀ x ∈ xs, x / 256 = j) (hn : xs.length < 31) :
    sparseSlice xs (j / 256) = true := by
  unfold sparseSlice
  rw [sparseCost_block hne h hn, sliceCard_block h, if_pos rfl, decide_eq_true_eq]
  omega

theorem encodedSize_block (hv : Valid xs) (h : ∀ x ∈ xs, x / 256 = j) (hn : xs.length < 31) :
    encodedSize xs = xs.length + 12 := by
  unfold encodedSize
  rw [slicesOf_block hv h]
  have : sliceBytes xs (j / 256) = xs.length + 2 := by
    unfold sliceBytes
    rw [sparseCost_block hv.1 h hn, sliceCard_block h, if_pos rfl, if_neg (by omega), if_pos (by omega)]
  simp only [List.length_cons, List.length_nil, List.map_cons, List.map_nil, List.sum_cons,
    List.sum_nil, this]
  omega

theorem blockStart_block (hv : Valid xs) (h : ∀ x ∈ xs, x / 256 = j) :
    blockStart xs (j / 256) (j % 256) = 12 := by
  have hpos := List.length_pos_iff.mpr hv.1
  have hb : sliceBlocks xs (j / 256) = 1 := by
    unfold sliceBlocks
    rw [eq_singleton (L := (List.range 256).filter _) (k := j % 256)
      (List.pairwise_lt_range.filter _)]
    · rfl
    · simp only [List.mem_filter, List.mem_range, decide_eq_true_eq]
      refine ⟨by omega, ?_⟩
      rw [blockCard_block h, if_pos (by omega)]
      omega
    · intro b hb
      simp only [List.mem_filter, List.mem_range, decide_eq_true_eq] at hb
      have h2 := hb.2
      rw [blockCard_block h] at h2
      split at h2
      · omega
      · exact absurd rfl h2
  have hs : sliceStart xs (j / 256) = 10 := by
    unfold sliceStart
    rw [slicesOf_block hv h]
    simp
  have h0 : (List.range (j % 256)).map (fun b => blockData (blockCard xs (256 * (j / 256) + b)))
      = (List.range (j % 256)).map (fun _ => 0) := by
    refine List.map_congr_left (fun b hb => ?_)
    have := List.mem_range.mp hb
    rw [blockCard_block h, if_neg (by omega)]
    rfl
  unfold blockStart
  rw [hb, hs, h0, sum_zeros]

/-- C59: a list of fewer than 31 elements inside one block of 256 values: the number of bytes after
its encoding that `decode` needs is 16 or 40 minus its length. -/
theorem C59_one_block (hv : Valid xs) (h : ∀ x ∈ xs, x / 256 = j) (hn : xs.length < 31) :
    HasTail xs pad ↔ (if xs.length ≤ 8 then 16 else 40) ≤ xs.length + pad := by
  have hpos := List.length_pos_iff.mpr hv.1
  have hj : j < 65535 * 256 := by
    obtain ⟨x, t, rfl⟩ : ∃ x t, xs = x :: t := by
      cases xs with
      | nil => exact absurd rfl hv.1
      | cons x t => exact ⟨x, t, rfl⟩
    have hx := h x (by simp)
    have hb := hv.2.2 x (by simp)
    omega
  have hbs := blockStart_block hv h
  have hes := encodedSize_block hv h hn
  have hbc := blockCard_block h
  have hbj : blockCard xs (256 * (j / 256) + j % 256) = xs.length := by
    rw [hbc, if_pos (by omega)]
  constructor
  · intro ht
    have := ht (j / 256) (j % 256) (by omega) (by omega) (sparseSlice_block hv.1 h hn)
      (by rw [hbj]; exact hpos) (by rw [hbj]; exact hn)
    rw [hbj, hbs, hes] at this
    omega
  · intro hle i b hi hb _ h1 _
    rw [hbc] at h1
    split at h1
    · rename_i he
      obtain rfl : i = j / 256 := by omega
      obtain rfl : b = j % 256 := by omega
      rw [hbj, hbs, hes]
      omega
    · omega

end OneBlock

/-! ## A memory mapped index -/

/-- What a process sees of the file `F` mapped at `a` with pages of `P` bytes (`a` is a multiple of
`P`): the bytes of the file, zeros up to the end of its last page, nothing else. -/
def mapped (P a : Nat) (F : List UInt8) : Mem := memOf a F ((P - F.length % P) % P)

-- the readable part is a whole number of pages
example (P : Nat) (F : List UInt8) (hP : 0 < P) : (F.length + (P - F.length % P) % P) % P = 0 := by
  have h := Nat.mod_lt F.length hP
  have hd := Nat.div_add_mod F.length P
  by_cases h0 : F.length % P = 0
  · rw [h0, Nat.sub_zero, Nat.mod_self, Nat.add_zero, h0]
  · rw [Nat.mod_eq_of_lt (a := P - F.length % P) (by omega),
      show F.length + (P - F.length % P) = P * (F.length / P) + P by omega, Nat.add_mod_right,
      Nat.mul_mod_right]

theorem memOf_stop (a : Nat) (F : List UInt8) (pad : Nat) : memOf a F pad (a + F.length + pad) = none := by
  unfold memOf
  rw [if_neg (by omega), List.getElem?_eq_none]
  simp only [List.length_append, List.length_replicate]
  omega

variable {params : Params} {univ : Nat} {lists : List (List Nat)} {offs : List Nat}
  {seqs : List UInt8} {st : Stats}

/-- C59: build a collection, save it, map the file.  The index can be opened and every sequence of it
found; `decode` of the `i`-th sequence is right if the output buffer has room for the list and the
list has its tail inside the last page of the file, and undefined otherwise. -/
theorem C59_mapped (hg : GoodCollection params univ lists)
    (hb : build_index dbg params (collection univ lists) = .ok (offs, seqs, st))
    (hsz : (save_index offs seqs).length < 18446744073709551616) (P a : Nat) :
    ∃ idx, SIndex.mmap (mapped P a (save_index offs seqs)) a = .ok idx ∧
      idx.size = (keptLists params lists).length ∧
      ∀ i xs, (keptLists params lists)[i]? = some xs → ∀ dbg', ∃ s,
        idx.get dbg' (mapped P a (save_index offs seqs)) i = .ok s ∧
        ∀ out tail, (save_index offs seqs).length + (P - (save_index offs seqs).length % P) % P
            = startAt (keptLists params lists) i + encodedSize xs + tail →
          (HasRoom xs out.length ∧ HasTail xs tail → ∃ out',
            s.decode dbg' (mapped P a (save_index offs seqs)) out 0 = .ok (xs.length, out') ∧
            out'.take xs.length = xs) ∧
          (¬ (HasRoom xs out.length ∧ HasTail xs tail) →
            s.decode dbg' (mapped P a (save_index offs seqs)) out 0 = .error .ub) := by
  obtain ⟨st', e, -⟩ := build_index_spec (dbg := dbg) hg
  rw [hb] at e
  simp only [Except.ok.injEq, Prod.mk.injEq] at e
  obtain ⟨rfl, rfl, -⟩ := e
  have hkv := keptLists_valid hg
  generalize hks : keptLists params lists = ks at *
  have hlen : (save_index (univ :: startsOf ks) (allBytes ks)).length
      = 16 + 8 * (ks.length + 1) + (ks.map encodedSize).sum := by
    rw [save_index_length, List.length_cons, startsOf, startsFrom_length, allBytes_length]
  generalize hF : save_index (univ :: startsOf ks) (allBytes ks) = F at *
  generalize hpad : (P - F.length % P) % P = pad
  have hm : mapped P a F = memOf a F pad := by unfold mapped; rw [hpad]
  rw [hm]
  have hl := loaded_memOf a F pad
  have hrd := hl.readable.append (readable_memOf a F pad)
  obtain ⟨idx, h1, -, h3, -, h4⟩ := mmap_spec (m := memOf a F pad) (a := a) (univ := univ) (ks := ks)
    (c := F.length) hg.1 hkv (by rw [hF]; exact hsz) (by rw [hF, List.take_length]; exact hl)
    (by omega)
  refine ⟨idx, h1, h3, ?_⟩
  intro i xs hi dbg'
  have hle := startAt_le hi
  have hv := hkv xs (List.mem_of_getElem? hi)
  obtain ⟨s, bytes, hs, hbl, hst⟩ := h4 i xs (F.length + pad - (startAt ks i + encodedSize xs)) hi
    (by omega) (by
      intro j hj
      have := hrd (startAt ks i + encodedSize xs + j) (by omega)
      rwa [← Nat.add_assoc, ← Nat.add_assoc] at this) dbg dbg'
  refine ⟨s, hs, ?_⟩
  intro out tail ht
  have hend := memOf_stop a F pad
  have hk := C59_decode (dbg' := dbg') hv hst (by
    rw [show a + startAt ks i + bytes.length + (F.length + pad - (startAt ks i + encodedSize xs))
      = a + F.length + pad by omega]
    exact hend) out
  rw [show F.length + pad - (startAt ks i + encodedSize xs) = tail by omega] at hk
  refine ⟨fun h => ?_, hk.2⟩
  obtain ⟨o, e, w⟩ := hk.1 h
  exact ⟨o, e, by simpa using w.take⟩

/-- C59: with a last page that has 31 bytes left, every sequence can be decoded (into a buffer with
room); so the only files at risk are those that end in the last 30 bytes of a page. -/
theorem C59_mapped_safe (hg : GoodCollection params univ lists)
    (hb : build_index dbg params (collection univ lists) = .ok (offs, seqs, st))
    (hsz : (save_index offs seqs).length < 18446744073709551616) {P a : Nat}
    (h31 : 31 ≤ (P - (save_index offs seqs).length % P) % P) {i : Nat}
    (hi : (keptLists params lists)[i]? = some xs) (out : List Nat)
    (hr : HasRoom xs out.length) :
    ∃ idx s out', SIndex.mmap (mapped P a (save_index offs seqs)) a = .ok idx ∧
      idx.get dbg' (mapped P a (save_index offs seqs)) i = .ok s ∧
      s.decode dbg' (mapped P a (save_index offs seqs)) out 0 = .ok (xs.length, out') ∧
      out'.take xs.length = xs := by
  obtain ⟨idx, h1, -, h3⟩ := C59_mapped hg hb hsz P a
  obtain ⟨s, h4, h5⟩ := h3 i xs hi dbg'
  have hle := startAt_le hi
  have hlen : (save_index offs seqs).length = 16 + 8 * ((keptLists params lists).length + 1)
      + ((keptLists params lists).map encodedSize).sum := by
    obtain ⟨st', e, -⟩ := build_index_spec (dbg := dbg) hg
    rw [hb] at e
    simp only [Except.ok.injEq, Prod.mk.injEq] at e
    obtain ⟨rfl, rfl, -⟩ := e
    rw [save_index_length, List.length_cons, startsOf, startsFrom_length, allBytes_length]
  obtain ⟨o, e, w⟩ := (h5 out ((save_index offs seqs).length
    + (P - (save_index offs seqs).length % P) % P
    - (startAt (keptLists params lists) i + encodedSize xs)) (by omega)).1
    ⟨hr, C59_mono (C59_31 xs) (by omega)⟩
  exact ⟨idx, s, o, h1, h4, e, w⟩

theorem zero_valid : Valid [0] := valid_of_lt (by decide) (by decide) (by decide)
theorem zero_one_valid : Valid [0, 1] := valid_of_lt (by decide) (by decide) (by decide)

/-- `x` two-element lists and `y` one-element lists -/
def shortLists (x y : Nat) : List (List Nat) := List.replicate x [0, 1] ++ List.replicate y [0]

theorem shortLists_mem {x y : Nat} {l : List Nat} (h : l ∈ shortLists x y) : l = [0, 1] ∨ l = [0] := by
  rcases List.mem_append.mp h with h | h
  · exact Or.inl (List.mem_replicate.mp h).2
  · exact Or.inr (List.mem_replicate.mp h).2

theorem shortLists_good (x y : Nat) : GoodCollection {} 2 (shortLists x y) := by
  refine ⟨by decide, ?_, ?_⟩
  · intro l hl
    rcases shortLists_mem hl with rfl | rfl <;> decide
  · intro l hl _
    rcases shortLists_mem hl with rfl | rfl
    · exact zero_one_valid
    · exact zero_valid

theorem shortLists_kept (x y : Nat) : keptLists {} (shortLists x y) = shortLists x y := by
  refine List.filter_eq_self.mpr (fun l hl => decide_eq_true ?_)
  rcases shortLists_mem hl with rfl | rfl
  · exact ⟨by simp, Or.inr (by decide)⟩
  · exact ⟨by simp, Or.inr (by decide)⟩

theorem shortLists_size (x y : Nat) :
    16 + 8 * ((shortLists x y).length + 1) + ((shortLists x y).map encodedSize).sum
      = 24 + 22 * x + 21 * y := by
  have e1 : encodedSize [0, 1] = 14 :=
    encodedSize_block (j := 0) zero_one_valid (by decide) (by decide)
  have e2 : encodedSize [0] = 13 := encodedSize_block (j := 0) zero_valid (by decide) (by decide)
  unfold shortLists
  rw [List.map_append, List.map_replicate, List.map_replicate, List.sum_append, e1, e2,
    List.length_append, List.length_replicate, List.length_replicate, List.sum_replicate_nat,
    List.sum_replicate_nat]
  omega

/-- C59: for every page size there is a collection with which mapping the index and decoding its last
sequence, which is `[0]`, is undefined, into any output buffer. -/
theorem C59_mapped_unsafe {P : Nat} (h0 : 0 < P) (h1 : P < 4294967296) :
    ∃ lists, GoodCollection {} 2 lists ∧ lists.getLast? = some [0] ∧
      ∃ offs seqs st, build_index dbg {} (collection 2 lists) = .ok (offs, seqs, st) ∧
        (save_index offs seqs).length % P = 0 ∧
        ∀ a dbg', ∃ idx s, SIndex.mmap (mapped P a (save_index offs seqs)) a = .ok idx ∧
          idx.get dbg' (mapped P a (save_index offs seqs)) (lists.length - 1) = .ok s ∧
          ∀ out, s.decode dbg' (mapped P a (save_index offs seqs)) out 0 = .error .ub := by
  obtain ⟨y, x, hy, hxy⟩ : ∃ y x, 0 < y ∧ 24 + 22 * x + 21 * y = 500 * P :=
    ⟨22 - (500 * P - 24) % 22, (500 * P - 24) / 22 + (500 * P - 24) % 22 - 21, by omega, by omega⟩
  have hg := shortLists_good x y
  obtain ⟨offs, seqs, st, hb, -⟩ := C18_exists (dbg := dbg) hg
  have hlen : (save_index offs seqs).length = 500 * P := by
    obtain ⟨st', e, -⟩ := build_index_spec (dbg := dbg) hg
    rw [hb] at e
    simp only [Except.ok.injEq, Prod.mk.injEq] at e
    obtain ⟨rfl, rfl, -⟩ := e
    rw [save_index_length, List.length_cons, startsOf, startsFrom_length, allBytes_length,
      shortLists_kept, shortLists_size, hxy]
  have hmod : (save_index offs seqs).length % P = 0 := by rw [hlen, Nat.mul_mod_left]
  have hll : (shortLists x y).length = x + y := by
    unfold shortLists
    rw [List.length_append, List.length_replicate, List.length_replicate]
  have hlast : (shortLists x y)[x + y - 1]? = some [0] := by
    unfold shortLists
    rw [List.getElem?_append_right (by rw [List.length_replicate]; omega), List.length_replicate,
      List.getElem?_replicate, if_pos (by omega)]
  refine ⟨shortLists x y, hg, ?_, offs, seqs, st, hb, hmod, ?_⟩
  · rw [List.getLast?_eq_getElem?, hll, hlast]
  · intro a dbg'
    obtain ⟨idx, g1, -, g3⟩ := C59_mapped hg hb (by omega) P a
    obtain ⟨s, g4, g5⟩ := g3 (x + y - 1) [0] (by rw [shortLists_kept]; exact hlast) dbg'
    refine ⟨idx, s, g1, by rw [hll]; exact g4, ?_⟩
    intro out
    have e2 : encodedSize [0] = 13 := encodedSize_block (j := 0) zero_valid (by decide) (by decide)
    have hst : startAt (shortLists x y) (x + y - 1) + 13 = 500 * P := by
      have ht : (shortLists x y).take (x + y - 1) = shortLists x (y - 1) := by
        unfold shortLists
        rw [List.take_append, List.take_replicate, List.take_replicate, List.length_replicate,
          Nat.min_eq_right (by omega), show min (x + y - 1 - x) y = y - 1 by omega]
      have hs := shortLists_size x (y - 1)
      have hll' : (shortLists x (y - 1)).length = x + (y - 1) := by
        unfold shortLists
        rw [List.length_append, List.length_replicate, List.length_replicate]
      unfold startAt
      rw [ht, hll]
      rw [hll'] at hs
      omega
    refine (g5 out 0 ?_).2 ?_
    · rw [hmod, Nat.sub_zero, Nat.mod_self, hlen, shortLists_kept, e2]
      omega
    · rintro ⟨-, h⟩
      have := (C59_one_block (j := 0) zero_valid (by decide) (by decide)).mp h
      simp at this

/-! ## Concrete cases -/

-- one element: 15 bytes; 9 elements in a block: 31; 30 elements: 10
example : HasTail [7] 15 ∧ ¬ HasTail [7] 14 := by
  have hv : Valid [7] := valid_of_lt (by decide) (by decide) (by decide)
  rw [C59_one_block (j := 0) hv (by decide) (by decide),
    C59_one_block (j := 0) hv (by decide) (by decide)]
  decide
example : HasTail (List.range 9) 31 ∧ ¬ HasTail (List.range 9) 30 := by
  have hv : Valid (List.range 9) := valid_of_lt (by decide) (by decide) (by decide)
  rw [C59_one_block (j := 0) hv (by decide) (by decide),
    C59_one_block (j := 0) hv (by decide) (by decide)]
  decide
example : HasTail (List.range 30) 10 ∧ ¬ HasTail (List.range 30) 9 := by
  have hv : Valid (List.range 30) := valid_of_lt (by decide) (by decide) (by decide)
  rw [C59_one_block (j := 0) hv (by decide) (by decide),
    C59_one_block (j := 0) hv (by decide) (by decide)]
  decide

-- C59_decode applied on both sides of the border
example : ∃ bytes s out, StoredAt true [7] 15 (memOf 64 bytes 15) 64 bytes s ∧
    s.decode true (memOf 64 bytes 15) (List.replicate 8 0) 0 = .ok (1, out) ∧ out.take 1 = [7] := by
  have hv : Valid [7] := valid_of_lt (by decide) (by decide) (by decide)
  obtain ⟨bytes, s, h, -⟩ := buildDecode_eq (dbg := true) hv 15 8
  have hroom : HasRoom [7] 8 := by
    refine ⟨by decide, fun i b _ _ _ h1 _ => ?_⟩
    have hc := blockCard_block (xs := [7]) (j := 0) (by decide) (256 * i + b)
    rw [hc] at h1 ⊢
    split at h1
    · rename_i he
      rw [if_pos he, he]
      decide
    · omega
  obtain ⟨o, e, w⟩ := (C59_decode (dbg' := true) hv h (memOf_stop _ _ _) (List.replicate 8 0)).1
    ⟨by rw [List.length_replicate]; exact hroom,
      (C59_one_block (j := 0) hv (by decide) (by decide)).mpr (by decide)⟩
  exact ⟨bytes, s, o, h, e, w.take_zero⟩

-- C59_bitmap: one element, then a slice with 40000
example : HasTail (5 :: List.range' 65536 40000) 0 := by
  have hcard : ∀ i, sliceCard (5 :: List.range' 65536 40000) i
      = (if i = 0 then 1 else 0) + (if i = 1 then 40000 else 0) := by
    intro i
    unfold sliceCard
    rw [List.filter_cons]
    have h1 : ((List.range' 65536 40000).filter (fun x => x / 65536 == i)).length
        = if i = 1 then 40000 else 0 := by
      by_cases hi : i = 1
      · rw [if_pos hi, List.filter_eq_self.mpr, List.length_range']
        intro x hx
        rw [List.mem_range'_1] at hx
        rw [beq_iff_eq]
        omega
      · rw [if_neg hi, List.length_eq_zero_iff, List.filter_eq_nil_iff]
        intro x hx
        rw [List.mem_range'_1] at hx
        rw [beq_iff_eq]
        omega
    by_cases hi : i = 0
    · subst hi
      rw [if_pos (by rfl), List.length_cons, h1]
      rfl
    · rw [if_neg (by simp; omega), h1, if_neg hi, Nat.zero_add]
  refine C59_bitmap (j := 1) (by decide) ?_ ?_ ?_ ?_
  · rw [hcard]; decide
  · rw [hcard]; decide
  · unfold sparseSlice
    rw [hcard, decide_eq_false_iff_not]
    simp
  · intro i _ hs h0
    unfold sparseSlice at hs
    rw [hcard] at hs h0
    have hs := of_decide_eq_true hs
    split at h0 <;> split at h0 <;> simp_all

-- pages of 4096 bytes
example : ∃ offs seqs st idx s, build_index true { size := 1 } (collection 80000 sampleColl)
      = .ok (offs, seqs, st) ∧ SIndex.mmap (mapped 4096 0 (save_index offs seqs)) 0 = .ok idx ∧
    idx.size = 2 ∧ idx.get false (mapped 4096 0 (save_index offs seqs)) 1 = .ok s := by
  obtain ⟨offs, seqs, st, m, hb, -, hsz, -⟩ := sampleColl_ready true
  obtain ⟨idx, h1, h2, h3⟩ := C59_mapped sampleColl_good hb hsz 4096 0
  obtain ⟨s, h4, -⟩ := h3 1 [3, 5, 300, 70000] (by decide) false
  exact ⟨offs, seqs, st, idx, s, hb, h1, h2.trans (by decide), h4⟩

end Sliced
