import Verif.Props.Tail
import Verif.Props.Locality
import Verif.Props.Cost
/-!
# What contains and select depend on, block by block (C57)

In a slice that is stored as blocks, `contains(v)` looks at the headers of the blocks and at the data of
the block of `v` only: all other bytes of the encoding, apart from the number of slices, the skip
pointers and the headers of the slices, may be damaged.
-/
namespace Sliced

/-- Byte `k` of the encoding of `xs` is the number of slices, a skip pointer or part of the header of
a slice; or it belongs to the slice of `v`, and that slice is not stored as blocks; or it is part of
the headers of the blocks of that slice; or it belongs to the data of the block of `v`. -/
def Needed (xs : List Nat) (v k : Nat) : Prop :=
  k < 2 + 8 * ((slicesOf xs).length / 32) + 8 * (slicesOf xs).length ∨
  (sparseSlice xs (v / 65536) = false ∧ sliceStart xs (v / 65536) ≤ k ∧
    k < sliceStart xs (v / 65536) + sliceBytes xs (v / 65536)) ∨
  (sparseSlice xs (v / 65536) = true ∧ sliceStart xs (v / 65536) ≤ k ∧
    k < sliceStart xs (v / 65536) + 2 * sliceBlocks xs (v / 65536)) ∨
  (sparseSlice xs (v / 65536) = true ∧ blockStart xs (v / 65536) (v / 256 % 256) ≤ k ∧
    k < blockStart xs (v / 65536) (v / 256 % 256) + blockData (blockCard xs (v / 256)))

theorem blkBytes_before {vs : List Nat} {k : Nat} {pre post : List Blk} {b : Blk}
    (h : blocksTo vs k = pre ++ b :: post) :
    b.vals = blockVals vs b.id ∧ b.id < k ∧
      blkBytes pre = ((List.range b.id).map (fun j => blockData (blockVals vs j).length)).sum := by
  induction k generalizing post with
  | zero =>
    have := congrArg List.length h
    simp [blocksTo] at this
  | succ k ih =>
    rw [blocksTo_succ] at h
    by_cases hk : blockVals vs k = []
    · rw [if_pos hk, List.append_nil] at h
      obtain ⟨h1, h2, h3⟩ := ih h
      exact ⟨h1, by omega, h3⟩
    · rw [if_neg hk] at h
      rcases List.eq_nil_or_concat post with rfl | ⟨post', y, rfl⟩
      · obtain ⟨h1, h2⟩ := List.append_inj' h rfl
        cases h2
        exact ⟨rfl, Nat.lt_succ_self _, by rw [← h1, blkBytes_blocksTo]⟩
      · rw [List.concat_eq_append, ← List.cons_append, ← List.append_assoc] at h
        obtain ⟨h1, -⟩ := List.append_inj' h rfl
        obtain ⟨h1, h2, h3⟩ := ih h1
        exact ⟨h1, by omega, h3⟩

variable {dbg dbg' : Bool} {xs : List Nat} {m : Mem} {a v : Nat} {s : SSeq}

theorem blockAt_of_loaded {j hp dp : Nat} {bs : List Blk} (hw : BlocksWF bs)
    (hh : Loaded m hp (bs.flatMap blkHdr))
    (hd : ∀ pre b post, bs = pre ++ b :: post → b.id = j → Loaded m (dp + blkBytes pre) (blkData b)) :
    BlockAt 0 m j hp dp bs := by
  induction bs generalizing hp dp with
  | nil => trivial
  | cons b bs ih =>
    rw [List.flatMap_cons] at hh
    obtain ⟨h0, h1⟩ := hh.append
    have hb := hw.head
    have hcl := hb.card_le
    have hcp := hb.card_pos
    refine ⟨h0.rd8 (i := 0) rfl hb.1, h0.rd8 (i := 1) rfl (by omega), fun hj => ?_, ?_⟩
    · have := hd [] b bs rfl hj
      rw [show dp + blkBytes [] = dp from rfl] at this
      refine blkAt_of_loaded hb this ?_
      have := this.readable
      rwa [blkData_length] at this
    · refine ih hw.tail h1 (fun pre c post he hc => ?_)
      have := hd (b :: pre) c post (by rw [he]; rfl) hc
      rwa [blkBytes_cons, ← Nat.add_assoc] at this

theorem needed_repr (hv : Valid xs)
    (h : ∀ k b, (seqBytes (chunksOf xs))[k]? = some b → Needed xs v k → m (a + k) = some b) :
    ∃ s, SSeq.ofAddr m a = .ok s ∧
      SeqAtP (fun dp c => c.id = v / 65536 → BodyFor 0 m v dp c.body) m s (chunksOf xs) := by
  have hw := chunksOf_wf hv.2.1
  obtain ⟨s, e, hs, -⟩ := seqAtP_of_loaded (a := a) (m := m)
    (B := fun dp c => c.id = v / 65536 → BodyFor 0 m v dp c.body) hw (chunksOf_small hv.2.1)
    (chunksOf_ne_nil hv)
    (by
      intro i b hb
      have hi := (List.getElem?_eq_some_iff.mp hb).1
      rw [dirBytes_length, chunksOf_length] at hi
      unfold dirSize at hi
      exact h i b (by rw [seqBytes_split, List.getElem?_append_left
        (List.getElem?_eq_some_iff.mp hb).1]; exact hb) (.inl (by omega)))
    (by
      intro pre c post he hid
      have hst := sliceStart_chunk he hw
      have hcm : c ∈ chunksOf xs := by rw [he]; simp
      obtain ⟨hlt, hbody, -⟩ := mem_chunksTo.mp hcm
      have hoff := chunksOf_body hcm
      have hpart : ∀ t b, (bodyBytes c.body)[t]? = some b → Needed xs v (sliceStart xs c.id + t) →
          m (a + sliceStart xs c.id + t) = some b := by
        intro t b hb hn
        have := h _ b (by
          have hbb : (chunksOf xs).flatMap (fun c => bodyBytes c.body)
              = pre.flatMap (fun c => bodyBytes c.body) ++ (bodyBytes c.body
                ++ post.flatMap (fun c => bodyBytes c.body)) := by
            rw [he, List.flatMap_append, List.flatMap_cons]
          rw [hst, Nat.add_assoc, seqBytes_split,
            List.getElem?_append_right (by rw [dirBytes_length]; omega),
            dirBytes_length, Nat.add_sub_cancel_left, hbb,
            List.getElem?_append_right (by rw [chunksData_length]; omega),
            chunksData_length, Nat.add_sub_cancel_left,
            List.getElem?_append_left (List.getElem?_eq_some_iff.mp hb).1]
          exact hb) hn
        rwa [← Nat.add_assoc] at this
      rw [Nat.add_assoc, ← hst]
      have hwf := (hw.2 c hcm).2
      cases hb : c.body with
      | full => trivial
      | dense vs =>
        have hns : sparseSlice xs (v / 65536) = false := by
          cases hsp : sparseSlice xs (v / 65536) with
          | false => rfl
          | true =>
            rw [hid, (bodyOf_sparse xs _).1 hsp, hb] at hbody
            cases hbody
        have hl : Loaded m (a + sliceStart xs c.id) (bodyBytes (.dense vs)) := by
          intro t b hbt
          rw [← hb] at hbt
          have hi := (List.getElem?_eq_some_iff.mp hbt).1
          rw [bodyBytes_length, hoff] at hi
          exact hpart t b hbt (.inr (.inl ⟨hns, by rw [← hid]; omega, by rw [← hid]; omega⟩))
        exact hl.bitmap
      | sparse bs =>
        have hsp : sparseSlice xs (v / 65536) = true := by
          cases hsp : sparseSlice xs (v / 65536) with
          | true => rfl
          | false => exact absurd (by rw [← hid, ← hbody, hb]) ((bodyOf_sparse xs _).2 hsp bs)
        have hbs : bs = blocksTo (chunkVals xs c.id) 256 := by
          rw [hid] at hbody ⊢
          rw [(bodyOf_sparse xs _).1 hsp, hb] at hbody
          exact Body.sparse.inj hbody
        have hlen : bs.length = sliceBlocks xs (v / 65536) := by rw [hbs, hid, sliceBlocks_eq]
        rw [hb] at hwf hpart
        refine blockAt_of_loaded hwf.2 ?_ ?_
        · intro t b hbt
          have hi := (List.getElem?_eq_some_iff.mp hbt).1
          rw [blocksHdr_length, hlen] at hi
          refine hpart t b ?_ (.inr (.inr (.inl ⟨hsp, by rw [← hid]; omega, by rw [hid]; omega⟩)))
          show (bs.flatMap blkHdr ++ bs.flatMap blkData)[t]? = some b
          rw [List.getElem?_append_left (List.getElem?_eq_some_iff.mp hbt).1]
          exact hbt
        · intro bpre b bpost hbe hbj t x hx
          have hi := (List.getElem?_eq_some_iff.mp hx).1
          rw [blkData_length] at hi
          obtain ⟨k1, k2, k3⟩ := blkBytes_before (hbs ▸ hbe)
          have hstart : blockStart xs (v / 65536) (v / 256 % 256)
              = sliceStart xs c.id + (2 * bs.length + blkBytes bpre) := by
            rw [blockStart_eq (by omega) (by omega), hlen, k3, hbj, hid, sliceStart,
              offSum_chunksTo xs (by omega), dirSize, chunksOf_length]
            rw [show v % 65536 / 256 = v / 256 % 256 by omega]
            omega
          have hsize : b.size = blockData (blockCard xs (v / 256)) := by
            have := blockVals_chunkVals xs c.id k2
            rw [← k1, hid, hbj, show 256 * (v / 65536) + v % 65536 / 256 = v / 256 by omega] at this
            rw [← this]
            rfl
          have := hpart (2 * bs.length + blkBytes bpre + t) x (by
            show (bs.flatMap blkHdr ++ bs.flatMap blkData)[_]? = some x
            rw [List.getElem?_append_right (by rw [blocksHdr_length]; omega), blocksHdr_length,
              show 2 * bs.length + blkBytes bpre + t - 2 * bs.length = blkBytes bpre + t by omega, hbe,
              List.flatMap_append, List.flatMap_cons,
              List.getElem?_append_right (by rw [blocksData_length]; omega), blocksData_length,
              Nat.add_sub_cancel_left,
              List.getElem?_append_left (List.getElem?_eq_some_iff.mp hx).1]
            exact hx) (.inr (.inr (.inr ⟨hsp, by omega, by omega⟩)))
          rw [show a + sliceStart xs c.id + 2 * bs.length + blkBytes bpre + t
            = a + sliceStart xs c.id + (2 * bs.length + blkBytes bpre + t) by omega]
          exact this)
  exact ⟨s, e, hs⟩

/-- C57: if the bytes that `Needed` lists are there, whatever the others are, the sequence can be opened
and `contains(v)` is right. -/
theorem C57_contains_block (hv : Valid xs) (h32 : v < 4294967296) {st : Stats} {bytes : List UInt8}
    (hb : build_sequence dbg xs [] = .ok (st, bytes))
    (h : ∀ k b, bytes[k]? = some b → Needed xs v k → m (a + k) = some b) :
    ∃ s, SSeq.ofAddr m a = .ok s ∧ s.contains dbg' m v = .ok (decide (v ∈ xs)) := by
  obtain ⟨st', k, e, -⟩ := build_sequence_spec (dbg := dbg) hv []
  rw [hb] at e
  simp only [List.nil_append, Except.ok.injEq, Prod.mk.injEq] at e
  obtain ⟨-, rfl⟩ := e
  obtain ⟨s, e, hs⟩ := needed_repr (v := v) hv h
  refine ⟨s, e, ?_⟩
  obtain ⟨it, e1, hit, -⟩ := It.skip_to_value_spec (lb := v / 65536) hs.begin hs.ptrs
  have := SSeq.contains_of_skip (dbg := dbg') (pad := 0) hs.wf h32 e1 hit (fun dp c hc hb => hb hc)
  rwa [seqElems_chunksOf hv] at this

/-- C57: `select(r)` is right if the bytes are there that are needed for the `r`-th element. -/
theorem C57_select_block (hv : Valid xs) {r : Nat} (hr : r < xs.length) {st : Stats} {bytes : List UInt8}
    (hb : build_sequence dbg xs [] = .ok (st, bytes))
    (h : ∀ k b, bytes[k]? = some b → Needed xs xs[r] k → m (a + k) = some b) (value : Nat) :
    ∃ s, SSeq.ofAddr m a = .ok s ∧ s.select dbg' m r value = .ok (true, xs[r]) := by
  obtain ⟨st', k, e, -⟩ := build_sequence_spec (dbg := dbg) hv []
  rw [hb] at e
  simp only [List.nil_append, Except.ok.injEq, Prod.mk.injEq] at e
  obtain ⟨-, rfl⟩ := e
  have hlt : xs.length ≤ 4294901760 := by
    have := sorted_length_le' hv.2.1 hv.2.2
    omega
  obtain ⟨s, e, hs⟩ := needed_repr (v := xs[r]) hv h
  refine ⟨s, e, ?_⟩
  have h' := SSeq.select_specF (dbg := dbg') (pad := 0) hs (r := r) (by omega) value (by
    intro dp c x hx hc hb
    rw [seqElems_chunksOf hv, List.getElem?_eq_getElem hr] at hx
    cases hx
    exact hb hc)
  rwa [seqElems_chunksOf hv, List.getElem?_eq_getElem hr] at h'

/-- The data of block `j` of slice `i`, for a slice that is stored as blocks, lies inside the slice and
behind the headers of the blocks, and the data of different blocks is apart. -/
theorem C57_blocks_apart {i j j' : Nat} (hi : i < 65535) (hs : sparseSlice xs i = true) (hj : j < 256) :
    sliceStart xs i + 2 * sliceBlocks xs i ≤ blockStart xs i j ∧
    blockStart xs i j + blockData (blockCard xs (256 * i + j)) ≤ sliceStart xs i + sliceBytes xs i ∧
    (j' < j → blockStart xs i j' + blockData (blockCard xs (256 * i + j')) ≤ blockStart xs i j) := by
  refine ⟨by unfold blockStart; omega, ?_, fun h => ?_⟩
  · rw [← bodyOf_off, off_sparse hs]
    have h1 := sum_range_le (f := fun j => blockData (blockVals (chunkVals xs i) j).length) hj
    have h2 := blockVals_chunkVals xs i hj
    rw [blockStart_eq hi (by omega), sliceStart, offSum_chunksTo xs (by omega), dirSize, chunksOf_length]
    simp only [h2] at h1
    omega
  · have := sum_range_le (f := fun j => blockData (blockCard xs (256 * i + j))) h
    unfold blockStart
    omega

/-- C57: no byte of the data of another block of the slice of `v` is needed, and no byte of another
slice. -/
theorem C57_not_needed {k : Nat} (hm : v / 65536 ∈ slicesOf xs) :
    (∀ j, j < 256 → j ≠ v / 256 % 256 → sparseSlice xs (v / 65536) = true →
      blockStart xs (v / 65536) j ≤ k →
      k < blockStart xs (v / 65536) j + blockData (blockCard xs (256 * (v / 65536) + j)) →
      ¬ Needed xs v k) ∧
    (∀ i ∈ slicesOf xs, i ≠ v / 65536 → sliceStart xs i ≤ k → k < sliceStart xs i + sliceBytes xs i →
      ¬ Needed xs v k) := by
  have hi := (mem_slicesOf.mp hm).1
  have hdir : ∀ i, 2 + 8 * ((slicesOf xs).length / 32) + 8 * (slicesOf xs).length ≤ sliceStart xs i := by
    intro i; unfold sliceStart; omega
  have hv2 : 256 * (v / 65536) + v / 256 % 256 = v / 256 := by omega
  constructor
  · intro j hj hne hs h1 h2 hn
    have a1 := C57_blocks_apart (j' := v / 256 % 256) hi hs hj
    have a2 := C57_blocks_apart (j := v / 256 % 256) (j' := j) hi hs (by omega)
    rw [hv2] at a1 a2
    have := hdir (v / 65536)
    rcases hn with h | ⟨h, -⟩ | ⟨-, h, h'⟩ | ⟨-, h, h'⟩
    · omega
    · rw [hs] at h; cases h
    · omega
    · rcases Nat.lt_or_gt_of_ne hne with hlt | hgt
      · have := a2.2.2 hlt
        omega
      · have := a1.2.2 hgt
        omega
  · intro i hmi hne h1 h2 hn
    have := hdir i
    have inside : sliceStart xs (v / 65536) ≤ k ∧ k < sliceStart xs (v / 65536) + sliceBytes xs (v / 65536) := by
      rcases hn with h | ⟨-, h, h'⟩ | ⟨hs, h, h'⟩ | ⟨hs, h, h'⟩
      · omega
      · exact ⟨h, h'⟩
      all_goals
        have a2 := C57_blocks_apart (j := v / 256 % 256) (j' := 0) hi hs (by omega)
        rw [hv2] at a2
        omega
    rcases Nat.lt_or_gt_of_ne hne with hlt | hgt
    · have := sliceStart_lt hmi hlt
      omega
    · have := sliceStart_lt hm hgt
      omega

/-! ## Examples -/

/-- `3, 5, 300, 70000`: all bytes taken away that `contains(5)` does not need. -/
example : ∃ (m : Mem) (bytes : List UInt8), (∃ st, build_sequence true [3, 5, 300, 70000] [] = .ok (st, bytes)) ∧
    (∀ k, ¬ Needed [3, 5, 300, 70000] 5 k → m (64 + k) = none) ∧
    (∃ s, SSeq.ofAddr m 64 = .ok s ∧ s.contains false m 5 = .ok true) ∧
    ∃ s, SSeq.ofAddr m 64 = .ok s ∧ s.select false m 1 9 = .ok (true, 5) := by
  obtain ⟨st, bytes, hb, -⟩ := stored_total true small_valid
  classical
  refine ⟨fun p => if Needed [3, 5, 300, 70000] 5 (p - 64) then memOf 64 bytes 0 p else none, bytes, ⟨st, hb⟩, ?_, ?_⟩
  · intro k hk
    show (if Needed [3, 5, 300, 70000] 5 (64 + k - 64) then _ else _) = _
    rw [Nat.add_sub_cancel_left]
    exact if_neg hk
  · have hm : ∀ k b, bytes[k]? = some b → Needed [3, 5, 300, 70000] 5 k →
        (fun p => if Needed [3, 5, 300, 70000] 5 (p - 64) then memOf 64 bytes 0 p else none) (64 + k)
          = some b := by
      intro k b hk hn
      show (if Needed [3, 5, 300, 70000] 5 (64 + k - 64) then _ else _) = _
      rw [Nat.add_sub_cancel_left]
      exact (if_pos hn).trans (loaded_memOf _ _ _ k b hk)
    exact ⟨C57_contains_block (dbg' := false) (a := 64) (v := 5) small_valid (by omega) hb hm,
      C57_select_block (dbg' := false) (a := 64) (r := 1) small_valid (by decide) hb hm 9⟩

/-- The block of 300 and the slice of 70000 of that list are not needed. -/
example : sparseSlice [3, 5, 300, 70000] 0 = true ∧
    (∀ k, blockStart [3, 5, 300, 70000] 0 1 ≤ k → k < blockStart [3, 5, 300, 70000] 0 1 + 1 →
      ¬ Needed [3, 5, 300, 70000] 5 k) ∧
    (∀ k, sliceStart [3, 5, 300, 70000] 1 ≤ k →
      k < sliceStart [3, 5, 300, 70000] 1 + sliceBytes [3, 5, 300, 70000] 1 →
      ¬ Needed [3, 5, 300, 70000] 5 k) := by
  have h0 : 5 / 65536 ∈ slicesOf [3, 5, 300, 70000] := mem_slicesOf.mpr ⟨by omega, 3, by simp, by omega⟩
  have h1 : 1 ∈ slicesOf [3, 5, 300, 70000] := mem_slicesOf.mpr ⟨by omega, 70000, by simp, by omega⟩
  have hs : sparseSlice [3, 5, 300, 70000] 0 = true := by decide +kernel
  have hc : blockData (blockCard [3, 5, 300, 70000] (256 * (5 / 65536) + 1)) = 1 := by decide +kernel
  refine ⟨hs, fun k a b => ?_, fun k => (C57_not_needed h0).2 1 h1 (by omega)⟩
  refine (C57_not_needed h0).1 1 (by omega) (by omega) hs a ?_
  rw [hc]
  exact b

end Sliced
