import Verif.Proof.EncodeSeq
/-! # What encoding one sequence adds to the statistics -/
namespace Sliced

/-- bits accounted for so far (everything `Stats.finish` sums up, before the constant) -/
def Stats.raw (st : Stats) : Nat :=
  st.chunks_header_bits + (st.dense_blocks * 16 + st.sparse_blocks * 8) + st.dense_chunks_bits
    + st.dense_blocks_bits + st.sparse_blocks_bits

theorem Stats.finish_bits (st : Stats) : st.finish.bits = st.raw + 128 := rfl

theorem offSum_bits (cs : List Chk) :
    65536 * lsum Chk.isDense cs + lsum (Chk.blk Blk.isDense) cs * 16
      + lsum (Chk.blk Blk.isSparse) cs * 8 + 256 * lsum (Chk.blk Blk.isDense) cs
      + lsum (Chk.blk Blk.bitsSparse) cs = 8 * offSum cs := by
  induction cs with
  | nil => rfl
  | cons c cs ih =>
    have h : 65536 * c.isDense + c.blk Blk.isDense * 16 + c.blk Blk.isSparse * 8
        + 256 * c.blk Blk.isDense + c.blk Blk.bitsSparse = 8 * c.body.off := by
      unfold Chk.isDense Chk.blk
      cases c.body with
      | full => rfl
      | dense vs => rfl
      | sparse bs => have := blkBytes_bits bs; simp only [Body.off]; omega
    simp only [lsum_cons, offSum, List.map_cons, List.sum_cons] at ih ⊢
    omega

theorem ints_split (cs : List Chk) :
    lsum (fun c => c.isSparse * c.card) cs + lsum (fun c => c.isDense * c.card) cs
      + lsum (fun c => c.isFull * c.card) cs = cardSum cs := by
  induction cs with
  | nil => rfl
  | cons c cs ih =>
    have h : c.isSparse * c.card + c.isDense * c.card + c.isFull * c.card = c.card := by
      unfold Chk.isSparse Chk.isDense Chk.isFull
      cases c.body <;> simp
    simp only [lsum_cons, cardSum, List.map_cons, List.sum_cons] at ih ⊢
    omega

theorem types_split (cs : List Chk) :
    lsum Chk.isSparse cs + lsum Chk.isDense cs + lsum Chk.isFull cs = cs.length := by
  induction cs with
  | nil => rfl
  | cons c cs ih =>
    have h : c.isSparse + c.isDense + c.isFull = 1 := by
      unfold Chk.isSparse Chk.isDense Chk.isFull
      cases c.body <;> simp
    simp only [lsum_cons, List.length_cons] at ih ⊢
    omega

theorem blk_ints_split (bs : List Blk) :
    lsum Blk.intsSparse bs + lsum Blk.intsDense bs = (blkElems bs).length := by
  induction bs with
  | nil => rfl
  | cons b bs ih =>
    have h : b.intsSparse + b.intsDense = b.elems.length := by
      unfold Blk.intsSparse Blk.intsDense Blk.elems
      rw [List.length_map]
      split <;> omega
    simp only [lsum_cons, blkElems, List.flatMap_cons, List.length_append] at ih ⊢
    omega

theorem sparse_ints_split (cs : List Chk) :
    lsum (Chk.blk Blk.intsSparse) cs + lsum (Chk.blk Blk.intsDense) cs
      = lsum (fun c => c.isSparse * c.card) cs := by
  induction cs with
  | nil => rfl
  | cons c cs ih =>
    have h : c.blk Blk.intsSparse + c.blk Blk.intsDense = c.isSparse * c.card := by
      unfold Chk.blk Chk.isSparse Chk.card
      cases c.body with
      | full => simp
      | dense vs => simp
      | sparse bs => have := blk_ints_split bs; simp only [Body.vals]; omega
    simp only [lsum_cons] at ih ⊢
    omega

theorem blocks_split (cs : List Chk) :
    lsum (Chk.blk Blk.isSparse) cs + lsum (Chk.blk Blk.isDense) cs = lsum Chk.nblocks cs := by
  induction cs with
  | nil => rfl
  | cons c cs ih =>
    have h : c.blk Blk.isSparse + c.blk Blk.isDense = c.nblocks := by
      unfold Chk.blk Chk.nblocks
      cases c.body with
      | full => simp
      | dense vs => simp
      | sparse bs =>
        simp only
        clear ih
        induction bs with
        | nil => rfl
        | cons b bs ih =>
          have : b.isSparse + b.isDense = 1 := by
            unfold Blk.isSparse Blk.isDense; split <;> omega
          simp only [lsum_cons, List.length_cons]; omega
    simp only [lsum_cons] at ih ⊢
    omega

/-- The relations between the counters that hold at any time. -/
structure Stats.Balanced (st : Stats) : Prop where
  ints : st.integers = st.integers_in_sparse_chunks + st.integers_in_dense_chunks
    + st.integers_in_full_chunks
  sparse_ints : st.integers_in_sparse_chunks
    = st.integers_in_sparse_blocks + st.integers_in_dense_blocks
  chunks : st.chunks = st.empty_chunks + st.sparse_chunks + st.dense_chunks + st.full_chunks
  blocks : st.blocks = st.empty_blocks + st.sparse_blocks + st.dense_blocks
  very_sparse : st.very_sparse_chunks = 0

theorem SeqStats.delta {st0 st : Stats} {cs : List Chk} {n k : Nat} (h : SeqStats st0 st cs n k)
    (hn : n = cardSum cs) :
    st.sequences = st0.sequences + 1 ∧ st.integers = st0.integers + n ∧
    st.chunks = st0.chunks + k ∧
    (st0.Balanced → st.Balanced) ∧ (st.raw = st0.raw + 8 * (seqBytes cs).length) ∧ st.ArraysOk := by
  have hi := h.inv
  have h1 := ints_split cs
  have h2 := types_split cs
  have h3 := sparse_ints_split cs
  have h4 := blocks_split cs
  have h5 := offSum_bits cs
  have e := hi.sequences; have e1 := hi.integers; have e2 := hi.chunks; have e3 := hi.empty_chunks
  have e4 := hi.sparse_chunks; have e5 := hi.dense_chunks; have e6 := hi.full_chunks
  have e7 := hi.ints_sparse; have e8 := hi.ints_dense; have e9 := hi.ints_full
  have f1 := hi.dense_chunks_bits; have f2 := hi.blocks; have f3 := hi.dense_blocks
  have f4 := hi.sparse_blocks; have f5 := hi.dense_blocks_bits; have f6 := hi.sparse_blocks_bits
  have f7 := hi.ints_dense_blocks; have f8 := hi.ints_sparse_blocks; have f9 := hi.very_sparse
  have g1 := h.header_bits
  simp only at e e1 e2 e3 e4 e5 e6 e7 e8 e9 f1 f2 f3 f4 f5 f6 f7 f8 f9
  refine ⟨by omega, by omega, by omega, ?_, ?_, hi.hist_len, hi.nb_len, hi.ni_len⟩
  · rintro ⟨b1, b2, b3, b4, b5⟩
    refine ⟨by omega, by omega, by omega, by omega, by omega⟩
  · rw [seqBytes_length]
    unfold Stats.raw
    unfold headerBits at g1
    omega

/-- The counters, each with what a list adds to it (in terms of its chunks).  `integers`,
`sequences` and `chunks` are in `IdxStats`; `bits` and `blocks_header_bits` are computed at the end. -/
def counterSums : List ((Stats → Nat) × (List Nat → Nat)) :=
  [(Stats.integers_in_sparse_chunks, fun xs => lsum (fun c => c.isSparse * c.card) (chunksOf xs)),
   (Stats.integers_in_dense_chunks, fun xs => lsum (fun c => c.isDense * c.card) (chunksOf xs)),
   (Stats.integers_in_full_chunks, fun xs => lsum (fun c => c.isFull * c.card) (chunksOf xs)),
   (Stats.integers_in_sparse_blocks, fun xs => lsum (Chk.blk Blk.intsSparse) (chunksOf xs)),
   (Stats.integers_in_dense_blocks, fun xs => lsum (Chk.blk Blk.intsDense) (chunksOf xs)),
   (Stats.sparse_chunks, fun xs => lsum Chk.isSparse (chunksOf xs)),
   (Stats.very_sparse_chunks, fun _ => 0),
   (Stats.dense_chunks, fun xs => lsum Chk.isDense (chunksOf xs)),
   (Stats.full_chunks, fun xs => lsum Chk.isFull (chunksOf xs)),
   (Stats.blocks, fun xs => lsum Chk.span (chunksOf xs)),
   (Stats.sparse_blocks, fun xs => lsum (Chk.blk Blk.isSparse) (chunksOf xs)),
   (Stats.dense_blocks, fun xs => lsum (Chk.blk Blk.isDense) (chunksOf xs)),
   (Stats.chunks_header_bits, fun xs => headerBits (chunksOf xs).length),
   (Stats.dense_chunks_bits, fun xs => 65536 * lsum Chk.isDense (chunksOf xs)),
   (Stats.dense_blocks_bits, fun xs => 256 * lsum (Chk.blk Blk.isDense) (chunksOf xs)),
   (Stats.sparse_blocks_bits, fun xs => lsum (Chk.blk Blk.bitsSparse) (chunksOf xs)),
   (fun st => st.sparse_blocks_cardinalities.head?.getD 0, fun _ => 0)]

theorem SeqStats.counters {st0 st : Stats} {xs : List Nat} {n k : Nat}
    (h : SeqStats st0 st (chunksOf xs) n k) : ∀ p ∈ counterSums, p.1 st = p.1 st0 + p.2 xs := by
  have hi := h.inv
  have e4 := hi.sparse_chunks; have e5 := hi.dense_chunks; have e6 := hi.full_chunks
  have e7 := hi.ints_sparse; have e8 := hi.ints_dense; have e9 := hi.ints_full
  have f1 := hi.dense_chunks_bits; have f2 := hi.blocks; have f3 := hi.dense_blocks
  have f4 := hi.sparse_blocks; have f5 := hi.dense_blocks_bits; have f6 := hi.sparse_blocks_bits
  have f7 := hi.ints_dense_blocks; have f8 := hi.ints_sparse_blocks; have f9 := hi.very_sparse
  have g2 := hi.empty_blocks; have g3 := hi.hist0
  have g1 := h.header_bits
  simp only at e4 e5 e6 e7 e8 e9 f1 f2 f3 f4 f5 f6 f7 f8 f9 g2 g3
  intro p hp
  simp only [counterSums, List.mem_cons, List.not_mem_nil, or_false] at hp
  rcases hp with rfl | rfl | rfl | rfl | rfl | rfl | rfl | rfl | rfl | rfl | rfl | rfl | rfl | rfl |
    rfl | rfl | rfl <;> simp only <;> omega

end Sliced
