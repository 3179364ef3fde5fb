import Verif.Proof.Encode
/-! # builder.hpp: whole sequences, and the statistics -/
namespace Sliced

/-! ## Counters -/

/-- sum of `f` over a list -/
def lsum {α : Type} (f : α → Nat) (L : List α) : Nat := (L.map f).sum

@[simp] theorem lsum_nil {α : Type} (f : α → Nat) : lsum f [] = 0 := rfl
@[simp] theorem lsum_append {α : Type} (f : α → Nat) (a b : List α) :
    lsum f (a ++ b) = lsum f a + lsum f b := by simp [lsum]
@[simp] theorem lsum_cons {α : Type} (f : α → Nat) (a : α) (b : List α) :
    lsum f (a :: b) = f a + lsum f b := by simp [lsum]

theorem lsum_add {α : Type} (f g : α → Nat) (L : List α) :
    lsum f L + lsum g L = lsum (fun a => f a + g a) L := by
  induction L with
  | nil => rfl
  | cons a L ih => simp only [lsum_cons]; omega

theorem lsum_mul {α : Type} (f : α → Nat) (k : Nat) (L : List α) :
    k * lsum f L = lsum (fun a => k * f a) L := by
  induction L with
  | nil => rfl
  | cons a L ih => simp only [lsum_cons, Nat.mul_add]; omega

theorem lsum_congr {α : Type} {f g : α → Nat} {L : List α} (h : ∀ a ∈ L, f a = g a) :
    lsum f L = lsum g L := by
  induction L with
  | nil => rfl
  | cons a L ih => rw [lsum_cons, lsum_cons, h a (by simp), ih (fun b hb => h b (by simp [hb]))]

def Blk.isSparse (b : Blk) : Nat := if b.vals.length < 31 then 1 else 0
def Blk.isDense (b : Blk) : Nat := if b.vals.length < 31 then 0 else 1
def Blk.intsSparse (b : Blk) : Nat := if b.vals.length < 31 then b.vals.length else 0
def Blk.intsDense (b : Blk) : Nat := if b.vals.length < 31 then 0 else b.vals.length
def Blk.bitsSparse (b : Blk) : Nat := if b.vals.length < 31 then 8 * (b.vals.length + 1) else 0
def Blk.hist (n : Nat) (b : Blk) : Nat := if b.vals.length = n then 1 else 0

/-- The counters computed by `sparse_chunk_bitsize` after `k` blocks, of which `bs` are not empty. -/
structure SpInv (sp : Stats) (bs : List Blk) (k : Nat) : Prop where
  blocks : sp.blocks = k
  empty_blocks : sp.empty_blocks + bs.length = k
  dense_blocks : sp.dense_blocks = lsum Blk.isDense bs
  sparse_blocks : sp.sparse_blocks = lsum Blk.isSparse bs
  dense_bits : sp.dense_blocks_bits = 256 * lsum Blk.isDense bs
  sparse_bits : sp.sparse_blocks_bits = lsum Blk.bitsSparse bs
  ints_dense : sp.integers_in_dense_blocks = lsum Blk.intsDense bs
  ints_sparse : sp.integers_in_sparse_blocks = lsum Blk.intsSparse bs
  hist_len : sp.sparse_blocks_cardinalities.length = 31
  hist : ∀ n, n < 31 → sp.sparse_blocks_cardinalities[n]? = some (lsum (Blk.hist n) bs)

theorem arr_add_of {a : List Nat} {i d x : Nat} (h : a[i]? = some x) :
    arr_add a i d = .ok (a.set i (x + d)) := by
  unfold arr_add
  rw [rdv_of h]
  simp only [ok_bind]
  rw [wr_of (List.getElem?_eq_some_iff.mp h).1]

theorem block_bitsize_spec {dbg : Bool} {sp : Stats} {bs : List Blk} {k : Nat} {vals : List Nat}
    (h : SpInv sp bs k) (hv : vals.length ≤ 256) :
    ∃ sp', block_bitsize dbg vals.length sp = .ok sp' ∧
      SpInv sp' (bs ++ (if vals = [] then [] else [(⟨k, vals⟩ : Blk)])) (k + 1) := by
  unfold block_bitsize
  rw [cassert_of (by simpa using hv)]
  simp only [ok_bind]
  by_cases hne : vals = []
  · subst hne
    refine ⟨_, rfl, ?_⟩
    simp only [if_true, List.append_nil]
    refine ⟨?_, ?_, h.dense_blocks, h.sparse_blocks, h.dense_bits, h.sparse_bits, h.ints_dense,
      h.ints_sparse, h.hist_len, h.hist⟩
    · have := h.blocks; simp only; omega
    · have := h.empty_blocks; simp only; omega
  · have hpos := List.length_pos_iff.mpr hne
    rw [if_neg (by omega), if_neg hne]
    by_cases hc : vals.length < 31
    · rw [if_neg (by simp only [block_sparseness_threshold]; omega),
        cassert_of (by simp only [block_sparseness_threshold, decide_eq_true_eq]; omega)]
      simp only [ok_bind]
      rw [arr_add_of (h.hist _ hc)]
      refine ⟨_, rfl, ⟨?_, ?_, ?_, ?_, ?_, ?_, ?_, ?_, ?_, ?_⟩⟩
      · have := h.blocks; simp only; omega
      · have := h.empty_blocks; simp only [List.length_append, List.length_cons, List.length_nil]; omega
      · rw [lsum_append, lsum_cons, lsum_nil]; simp only [Blk.isDense, if_pos hc]; exact h.dense_blocks
      · rw [lsum_append, lsum_cons, lsum_nil]; simp only [Blk.isSparse, if_pos hc]; rw [h.sparse_blocks]
      · rw [lsum_append, lsum_cons, lsum_nil]; simp only [Blk.isDense, if_pos hc]; exact h.dense_bits
      · rw [lsum_append, lsum_cons, lsum_nil]; simp only [Blk.bitsSparse, if_pos hc]; rw [h.sparse_bits]; omega
      · rw [lsum_append, lsum_cons, lsum_nil]; simp only [Blk.intsDense, if_pos hc]; exact h.ints_dense
      · rw [lsum_append, lsum_cons, lsum_nil]; simp only [Blk.intsSparse, if_pos hc]; rw [h.ints_sparse]; omega
      · simp [h.hist_len]
      · intro n hn
        rw [lsum_append, lsum_cons, lsum_nil]
        simp only [Blk.hist]
        rw [List.getElem?_set]
        by_cases he : vals.length = n
        · rw [if_pos he, if_pos (by rw [h.hist_len]; exact hc), if_pos he, he]
        · rw [if_neg he, if_neg he, h.hist n hn]; rfl
    · rw [if_pos (by simp only [block_sparseness_threshold]; omega)]
      refine ⟨_, rfl, ⟨?_, ?_, ?_, ?_, ?_, ?_, ?_, ?_, h.hist_len, ?_⟩⟩
      · have := h.blocks; simp only; omega
      · have := h.empty_blocks; simp only [List.length_append, List.length_cons, List.length_nil]; omega
      · rw [lsum_append, lsum_cons, lsum_nil]; simp only [Blk.isDense, if_neg hc]; rw [h.dense_blocks]
      · rw [lsum_append, lsum_cons, lsum_nil]; simp only [Blk.isSparse, if_neg hc]; exact h.sparse_blocks
      · rw [lsum_append, lsum_cons, lsum_nil]; simp only [Blk.isDense, if_neg hc, block_size]; rw [h.dense_bits]; omega
      · rw [lsum_append, lsum_cons, lsum_nil]; simp only [Blk.bitsSparse, if_neg hc]; exact h.sparse_bits
      · rw [lsum_append, lsum_cons, lsum_nil]; simp only [Blk.intsDense, if_neg hc]; rw [h.ints_dense]; omega
      · rw [lsum_append, lsum_cons, lsum_nil]; simp only [Blk.intsSparse, if_neg hc]; exact h.ints_sparse
      · intro n hn
        rw [lsum_append, lsum_cons, lsum_nil]
        simp only [Blk.hist]
        rw [if_neg (by omega)]
        exact h.hist n hn

theorem sparse_chunk_bitsize_loop_spec {dbg : Bool} {left : Nat} {B vs : List Nat}
    (hl : left + 65536 ≤ 4294967295) (hs : vs.Pairwise (· < ·)) (hb : ∀ v ∈ vs, v < 65536)
    (hB : ∀ x ∈ B, left + 65536 ≤ x) (f : Nat) {A done : List Nat} {k : Nat} {sp : Stats}
    (hv : done ++ A = vs) (hd : ∀ x ∈ done, x / 256 ≤ k) (hA : ∀ x ∈ A, k ≤ x / 256) (hk : k < 256)
    (hf : A.length + (255 - k) < f) (hat : A = [] → ∃ x ∈ done, x / 256 = k)
    (hsp : SpInv sp (blocksTo vs k) k) :
    ∃ k' sp', k' < 256 ∧ (∃ x ∈ vs, x / 256 = k') ∧ (∀ x ∈ vs, x / 256 ≤ k') ∧
      SpInv sp' (blocksTo vs k') k' ∧
      sparse_chunk_bitsize_loop dbg ⟨left, left + 65536⟩ f (A.map (left + ·) ++ B) (left + 256 * k)
        (blockVals done k).length sp = .ok ((blockVals vs k').length, sp') := by
  induction f generalizing A done k sp with
  | zero => omega
  | succ f ih =>
    cases A with
    | nil =>
      rw [List.append_nil] at hv
      subst hv
      refine ⟨k, sp, hk, hat rfl, hd, hsp, ?_⟩
      cases B with
      | nil => rfl
      | cons x B =>
        have := hB x (by simp)
        simp only [List.map_nil, List.nil_append, sparse_chunk_bitsize_loop]
        rw [if_neg (by omega)]
    | cons a A =>
      have ha : a < 65536 := hb a (by rw [← hv]; simp)
      have hka := hA a (by simp)
      have hsub : vs.Pairwise (· < ·) := hs
      rw [← hv] at hsub
      have hsub2 := (List.pairwise_append.mp hsub).2.1
      have hsub1 := (List.pairwise_append.mp hsub).1
      rw [List.pairwise_cons] at hsub2
      simp only [List.map_cons, List.cons_append, sparse_chunk_bitsize_loop]
      rw [if_pos (by omega), sub32_eq (by omega) (by omega),
        show left + a - (left + 256 * k) = a - 256 * k by omega]
      by_cases hge : a - 256 * k ≥ 256
      · rw [if_pos hge]
        have hle : (blockVals done k).length ≤ 256 :=
          sorted_length_le' (blockVals_sorted hsub1 k) blockVals_lt
        obtain ⟨sp1, e1, hsp1⟩ := block_bitsize_spec (dbg := dbg) hsp hle
        rw [e1]
        simp only [ok_bind]
        have hnone : ∀ x ∈ a :: A, x / 256 ≠ k := by
          intro x hx
          rcases List.mem_cons.mp hx with rfl | hx
          · omega
          · have := hsub2.1 x hx; omega
        have e1 : blockVals done k = blockVals vs k := by
          rw [← hv, blockVals_append_none hnone]
        rw [e1, ← blocksTo_succ] at hsp1
        rw [u32_lt (by simp only [block_size]; omega),
          show left + 256 * k + block_size = left + 256 * (k + 1) by simp only [block_size]; omega]
        have := ih (A := a :: A) (done := done) (k := k + 1) hv (fun x hx => by have := hd x hx; omega)
          (fun x hx => by have := hA x hx; have := hnone x hx; omega) (by omega)
          (by omega) (fun h => by cases h) hsp1
        rw [blockVals_none (A := done) (fun x hx => by have := hd x hx; omega)] at this
        exact this
      · rw [if_neg hge, cassert_of (by simp only [block_size, decide_eq_true_eq]; omega)]
        simp only [ok_bind]
        have e1 : (blockVals done k).length + 1 = (blockVals (done ++ [a]) k).length := by
          unfold blockVals
          rw [List.filter_append, List.map_append]
          have : a / 256 = k := by omega
          simp [this]
        rw [e1]
        have hle : (blockVals (done ++ [a]) k).length ≤ 256 := by
          apply sorted_length_le' _ blockVals_lt
          apply blockVals_sorted
          have : (done ++ [a]) ++ A = vs := by simpa using hv
          rw [← this] at hs
          exact (List.pairwise_append.mp hs).1
        rw [cassert_of (by simp only [block_size, decide_eq_true_eq]; omega)]
        simp only [ok_bind]
        refine ih (A := A) (done := done ++ [a]) (by simpa using hv) ?_
          (fun x hx => hA x (by simp [hx])) hk (by rw [List.length_cons] at hf; omega)
          (fun _ => ⟨a, by simp, by omega⟩) hsp
        intro x hx
        rcases List.mem_append.mp hx with hx | hx
        · exact hd x hx
        · simp at hx; subst hx; omega

theorem spInv_init : SpInv {} [] 0 := by
  refine ⟨rfl, rfl, rfl, rfl, rfl, rfl, rfl, rfl, rfl, ?_⟩
  intro n hn
  show (List.replicate 31 0)[n]? = some 0
  rw [List.getElem?_replicate, if_pos hn]

/-- one more than the number of the last block of a slice with the (increasing) values `vs` -/
def spanOf (vs : List Nat) : Nat := match vs.getLast? with | some v => v / 256 + 1 | none => 0

theorem spanOf_eq {vs : List Nat} (hs : vs.Pairwise (· < ·)) {k : Nat} (h1 : ∃ x ∈ vs, x / 256 = k)
    (h2 : ∀ x ∈ vs, x / 256 ≤ k) : spanOf vs = k + 1 := by
  obtain ⟨x, hx, rfl⟩ := h1
  have hne := List.ne_nil_of_mem hx
  unfold spanOf
  rw [List.getLast?_eq_some_getLast hne]
  have hle := h2 _ (List.getLast_mem hne)
  have hc := List.dropLast_concat_getLast hne
  have hge : x ≤ vs.getLast hne := by
    rw [← hc] at hs hx
    rcases List.mem_append.mp hx with hx | hx
    · exact Nat.le_of_lt ((List.pairwise_append.mp hs).2.2 x hx _ (by simp))
    · simp at hx; omega
  show vs.getLast hne / 256 + 1 = _
  omega

theorem sparse_chunk_bitsize_spec {dbg : Bool} {left : Nat} {B vs : List Nat}
    (hl : left + 65536 ≤ 4294967295) (hs : vs.Pairwise (· < ·)) (hb : ∀ v ∈ vs, v < 65536)
    (hne : vs ≠ []) (hB : ∀ x ∈ B, left + 65536 ≤ x) :
    ∃ sp k, sparse_chunk_bitsize dbg (vs.map (left + ·) ++ B) ⟨left, left + 65536⟩ = .ok sp ∧
      k ≤ 256 ∧ k = spanOf vs ∧ SpInv sp (blocksTo vs 256) k := by
  unfold sparse_chunk_bitsize
  obtain ⟨k, sp, hk, hatt, hlast, hsp, e⟩ := sparse_chunk_bitsize_loop_spec (dbg := dbg) hl hs hb hB
    (sparse_loop_fuel (vs.map (left + ·) ++ B)) (A := vs) (done := []) (k := 0) (sp := {}) rfl
    (by simp) (by simp) (by omega) (sparse_fuel_ge hne _) (fun h => absurd h hne) spInv_init
  rw [Nat.mul_zero, Nat.add_zero] at e
  replace e : sparse_chunk_bitsize_loop dbg ⟨left, left + 65536⟩
    (sparse_loop_fuel (vs.map (left + ·) ++ B)) (vs.map (left + ·) ++ B) left 0 {} = _ := e
  simp only [e, ok_bind]
  obtain ⟨sp1, e1, hsp1⟩ := block_bitsize_spec (dbg := dbg) (vals := blockVals vs k) hsp
    (sorted_length_le' (blockVals_sorted hs k) blockVals_lt)
  rw [← blocksTo_succ,
    ← blocksTo_last (n := 256) (fun x hx => by have := hlast x hx; omega) (by omega)] at hsp1
  exact ⟨sp1, k + 1, e1, by omega, (spanOf_eq hs hatt hlast).symm, hsp1⟩

/-! ## Chunk counters -/

def Chk.isSparse (c : Chk) : Nat := match c.body with | .sparse _ => 1 | _ => 0
def Chk.isDense (c : Chk) : Nat := match c.body with | .dense _ => 1 | _ => 0
def Chk.isFull (c : Chk) : Nat := match c.body with | .full => 1 | _ => 0
/-- sum of `f` over the blocks of a sparse chunk -/
def Chk.blk (f : Blk → Nat) (c : Chk) : Nat := match c.body with | .sparse bs => lsum f bs | _ => 0
def Chk.nblocks (c : Chk) : Nat := match c.body with | .sparse bs => bs.length | _ => 0
/-- contribution to entry `n` of the histogram over the number of blocks -/
def Chk.histBlocks (n : Nat) (c : Chk) : Nat :=
  match c.body with | .sparse bs => if bs.length = n then 1 else 0 | _ => 0
/-- the blocks the counters see in a sparse chunk: up to its last element -/
def Chk.span (c : Chk) : Nat := match c.body with | .sparse bs => spanOf (blkElems bs) | _ => 0
def Chk.histInts (n : Nat) (c : Chk) : Nat :=
  match c.body with | .sparse bs => if bs.length = n then (blkElems bs).length else 0 | _ => 0

/-- Counter values `st`, starting from `st0`, after `i` slices of which `cs` are not empty. -/
structure StInv (st0 st : Stats) (cs : List Chk) (i : Nat) : Prop where
  sequences : st.sequences = st0.sequences
  integers : st.integers = st0.integers
  chunks : st.chunks = st0.chunks
  header_bits : st.chunks_header_bits = st0.chunks_header_bits
  very_sparse : st.very_sparse_chunks = st0.very_sparse_chunks
  empty_chunks : st.empty_chunks + cs.length = st0.empty_chunks + i
  sparse_chunks : st.sparse_chunks = st0.sparse_chunks + lsum Chk.isSparse cs
  dense_chunks : st.dense_chunks = st0.dense_chunks + lsum Chk.isDense cs
  full_chunks : st.full_chunks = st0.full_chunks + lsum Chk.isFull cs
  ints_sparse : st.integers_in_sparse_chunks
    = st0.integers_in_sparse_chunks + lsum (fun c => c.isSparse * c.card) cs
  ints_dense : st.integers_in_dense_chunks
    = st0.integers_in_dense_chunks + lsum (fun c => c.isDense * c.card) cs
  ints_full : st.integers_in_full_chunks
    = st0.integers_in_full_chunks + lsum (fun c => c.isFull * c.card) cs
  dense_chunks_bits : st.dense_chunks_bits = st0.dense_chunks_bits + 65536 * lsum Chk.isDense cs
  blocks : st.blocks + st0.empty_blocks = st0.blocks + st.empty_blocks + lsum Chk.nblocks cs
  dense_blocks : st.dense_blocks = st0.dense_blocks + lsum (Chk.blk Blk.isDense) cs
  sparse_blocks : st.sparse_blocks = st0.sparse_blocks + lsum (Chk.blk Blk.isSparse) cs
  dense_blocks_bits : st.dense_blocks_bits
    = st0.dense_blocks_bits + 256 * lsum (Chk.blk Blk.isDense) cs
  sparse_blocks_bits : st.sparse_blocks_bits
    = st0.sparse_blocks_bits + lsum (Chk.blk Blk.bitsSparse) cs
  ints_dense_blocks : st.integers_in_dense_blocks
    = st0.integers_in_dense_blocks + lsum (Chk.blk Blk.intsDense) cs
  ints_sparse_blocks : st.integers_in_sparse_blocks
    = st0.integers_in_sparse_blocks + lsum (Chk.blk Blk.intsSparse) cs
  hist_len : st.sparse_blocks_cardinalities.length = 31
  hist : ∀ n, 1 ≤ n → n < 31 → st.sparse_blocks_cardinalities[n]?
    = st0.sparse_blocks_cardinalities[n]?.map (· + lsum (Chk.blk (Blk.hist n)) cs)
  nb_len : st.num_blocks_in_chunks.length = 257
  nb : ∀ n, st.num_blocks_in_chunks[n]?
    = st0.num_blocks_in_chunks[n]?.map (· + lsum (Chk.histBlocks n) cs)
  ni_len : st.num_integers.length = 257
  ni : ∀ n, st.num_integers[n]? = st0.num_integers[n]?.map (· + lsum (Chk.histInts n) cs)
  empty_blocks : st.empty_blocks + lsum Chk.nblocks cs = st0.empty_blocks + lsum Chk.span cs
  hist0 : st.sparse_blocks_cardinalities.head?.getD 0 = st0.sparse_blocks_cardinalities.head?.getD 0

/-- The three arrays have their declared lengths. -/
def Stats.ArraysOk (st : Stats) : Prop :=
  st.sparse_blocks_cardinalities.length = 31 ∧ st.num_blocks_in_chunks.length = 257 ∧
    st.num_integers.length = 257

theorem stInv_init {st : Stats} (h : st.ArraysOk) : StInv st st [] 0 := by
  refine ⟨rfl, rfl, rfl, rfl, rfl, rfl, rfl, rfl, rfl, rfl, rfl, rfl, rfl, by simp, rfl, rfl, rfl,
    rfl, rfl, rfl, h.1, ?_, h.2.1, ?_, h.2.2, ?_, rfl, rfl⟩ <;> simp

theorem blkBytes_bits (bs : List Blk) :
    lsum Blk.isDense bs * 16 + lsum Blk.isSparse bs * 8 + 256 * lsum Blk.isDense bs
      + lsum Blk.bitsSparse bs = 8 * (2 * bs.length + blkBytes bs) := by
  induction bs with
  | nil => rfl
  | cons b bs ih =>
    simp only [lsum_cons, blkBytes_cons, List.length_cons]
    have : b.isDense * 16 + b.isSparse * 8 + 256 * b.isDense + b.bitsSparse = 8 * (2 + b.size) := by
      unfold Blk.isDense Blk.isSparse Blk.bitsSparse Blk.size bytes_by_cardinality
      split <;> omega
    omega

theorem nblocks_split (bs : List Blk) : lsum Blk.isDense bs + lsum Blk.isSparse bs = bs.length := by
  induction bs with
  | nil => rfl
  | cons b bs ih =>
    simp only [lsum_cons, List.length_cons]
    have : b.isDense + b.isSparse = 1 := by
      unfold Blk.isDense Blk.isSparse; split <;> rfl
    omega

theorem packed_eq {n : Nat} (h : n ≤ 255) : u16 (type_sparse ||| (n * 256)) = 1 + 256 * n := by
  have : type_sparse ||| (n * 256) = 1 + 256 * n := by
    rw [Nat.or_comm, show n * 256 = 2 ^ 8 * n by omega, ← Nat.two_pow_add_eq_or_of_lt (by decide)]
    simp only [type_sparse]; omega
  rw [this, u16_lt (by omega)]

/-- `st` after an empty slice -/
theorem StInv.empty {st0 st : Stats} {cs : List Chk} {i : Nat} (h : StInv st0 st cs i) :
    StInv st0 { st with empty_chunks := st.empty_chunks + 1 } cs (i + 1) := by
  obtain ⟨h1, h2, h3, h4, h5, h6, h7, h8, h9, h10, h11, h12, h13, h14, h15, h16, h17, h18, h19,
    h20, h21, h22, h23, h24, h25, h26, h27, h28⟩ := h
  constructor <;> simp only <;> first | assumption | omega

theorem StInv.full {st0 st : Stats} {cs : List Chk} {i : Nat} (h : StInv st0 st cs i) {c : Chk}
    (hbo : c.body = .full) :
    StInv st0 { st with
      full_chunks := st.full_chunks + 1
      integers_in_full_chunks := st.integers_in_full_chunks + c.card } (cs ++ [c]) (i + 1) := by
  have e1 : c.isSparse = 0 := by simp only [Chk.isSparse, hbo]
  have e2 : c.isDense = 0 := by simp only [Chk.isDense, hbo]
  have e3 : c.isFull = 1 := by simp only [Chk.isFull, hbo]
  have e4 : ∀ f, c.blk f = 0 := by intro f; simp only [Chk.blk, hbo]
  have e5 : c.nblocks = 0 := by simp only [Chk.nblocks, hbo]
  have e6 : ∀ n, c.histBlocks n = 0 := by intro f; simp only [Chk.histBlocks, hbo]
  have e7 : ∀ n, c.histInts n = 0 := by intro f; simp only [Chk.histInts, hbo]
  have e9 : c.span = 0 := by simp only [Chk.span, hbo]
  obtain ⟨h1, h2, h3, h4, h5, h6, h7, h8, h9, h10, h11, h12, h13, h14, h15, h16, h17, h18, h19,
    h20, h21, h22, h23, h24, h25, h26, h27, h28⟩ := h
  constructor <;>
    simp only [lsum_append, lsum_cons, lsum_nil, e1, e2, e3, e4, e5, e6, e7, e9, Nat.add_zero,
      Nat.zero_mul, Nat.one_mul, List.length_append, List.length_cons, List.length_nil] <;>
    first | assumption | omega

theorem StInv.dense {st0 st : Stats} {cs : List Chk} {i : Nat} (h : StInv st0 st cs i) {c : Chk}
    {vs : List Nat} (hbo : c.body = .dense vs) :
    StInv st0 { st with
      dense_chunks := st.dense_chunks + 1
      dense_chunks_bits := st.dense_chunks_bits + u32 (bytes_for chunk_size) * 8
      integers_in_dense_chunks := st.integers_in_dense_chunks + c.card } (cs ++ [c]) (i + 1) := by
  have e1 : c.isSparse = 0 := by simp only [Chk.isSparse, hbo]
  have e2 : c.isDense = 1 := by simp only [Chk.isDense, hbo]
  have e3 : c.isFull = 0 := by simp only [Chk.isFull, hbo]
  have e4 : ∀ f, c.blk f = 0 := by intro f; simp only [Chk.blk, hbo]
  have e5 : c.nblocks = 0 := by simp only [Chk.nblocks, hbo]
  have e6 : ∀ n, c.histBlocks n = 0 := by intro f; simp only [Chk.histBlocks, hbo]
  have e7 : ∀ n, c.histInts n = 0 := by intro f; simp only [Chk.histInts, hbo]
  have e9 : c.span = 0 := by simp only [Chk.span, hbo]
  have e8 : u32 (bytes_for chunk_size) = 8192 := by decide
  obtain ⟨h1, h2, h3, h4, h5, h6, h7, h8, h9, h10, h11, h12, h13, h14, h15, h16, h17, h18, h19,
    h20, h21, h22, h23, h24, h25, h26, h27, h28⟩ := h
  constructor <;>
    simp only [lsum_append, lsum_cons, lsum_nil, e1, e2, e3, e4, e5, e6, e7, e8, e9, Nat.add_zero,
      Nat.zero_mul, Nat.one_mul, List.length_append, List.length_cons, List.length_nil] <;>
    first | assumption | omega

theorem hist_set {a0 a : List Nat} {i d t x : Nat} (ha : a[i]? = some x) (n : Nat)
    (h : a[n]? = a0[n]?.map (· + t)) :
    (a.set i (x + d))[n]? = a0[n]?.map (· + (t + if i = n then d else 0)) := by
  rw [List.getElem?_set]
  by_cases he : i = n
  · subst he
    rw [if_pos rfl, if_pos (List.getElem?_eq_some_iff.mp ha).1, if_pos rfl]
    rw [ha] at h
    cases h0 : a0[i]? with
    | none => rw [h0] at h; simp at h
    | some y => rw [h0] at h; simp at h; simp [h, Nat.add_assoc]
  · rw [if_neg he, if_neg he, h]; rfl

theorem hist_acc {a b : List Nat} (ha : a.length = 31) (hb : b.length = 31) {n : Nat} (h1 : 1 ≤ n)
    (h2 : n < 31) {x y : Nat} (hx : a[n]? = some x) (hy : b[n]? = some y) :
    (a.head?.toList ++ List.zipWith (· + ·) a.tail b.tail)[n]? = some (x + y) := by
  match a, b, ha, hb with
  | p :: a, q :: b, ha, hb =>
    obtain ⟨n, rfl⟩ : ∃ k, n = k + 1 := ⟨n - 1, by omega⟩
    rw [List.getElem?_cons_succ] at hx hy
    simp [List.getElem?_zipWith, hx, hy]

theorem StInv.sparse {st0 st : Stats} {cs : List Chk} {i k : Nat} (h : StInv st0 st cs i) {c : Chk}
    {bs : List Blk} (hbo : c.body = .sparse bs) {sp : Stats} (hsp : SpInv sp bs k)
    (hk : k = spanOf (blkElems bs)) {x y : Nat} (h0 : st0.ArraysOk)
    (hx : st.num_blocks_in_chunks[bs.length]? = some x) (hy : st.num_integers[bs.length]? = some y) :
    StInv st0 (Stats.accumulate { st with
      sparse_chunks := st.sparse_chunks + 1
      integers_in_sparse_chunks := st.integers_in_sparse_chunks + c.card
      num_blocks_in_chunks := st.num_blocks_in_chunks.set bs.length (x + 1)
      num_integers := st.num_integers.set bs.length (y + c.card)
      blocks := st.blocks + (bs.length + sp.empty_blocks) } sp) (cs ++ [c]) (i + 1) := by
  have e1 : c.isSparse = 1 := by simp only [Chk.isSparse, hbo]
  have e2 : c.isDense = 0 := by simp only [Chk.isDense, hbo]
  have e3 : c.isFull = 0 := by simp only [Chk.isFull, hbo]
  have e4 : ∀ f, c.blk f = lsum f bs := by intro f; simp only [Chk.blk, hbo]
  have e5 : c.nblocks = bs.length := by simp only [Chk.nblocks, hbo]
  have e6 : ∀ n, c.histBlocks n = if bs.length = n then 1 else 0 := by
    intro f; simp only [Chk.histBlocks, hbo]
  have e7 : ∀ n, c.histInts n = if bs.length = n then c.card else 0 := by
    intro f; simp only [Chk.histInts, hbo, Chk.card, Body.vals]
  have e9 : c.span = k := by simp only [Chk.span, hbo, hk]
  obtain ⟨h1, h2, h3, h4, h5, h6, h7, h8, h9, h10, h11, h12, h13, h14, h15, h16, h17, h18,
    h19, h20, h21, h22, h23, h24, h25, h26, h27, h28⟩ := h
  obtain ⟨s1, s2, s3, s4, s5, s6, s7, s8, s9, s10⟩ := hsp
  constructor
  case hist =>
    intro n hn1 hn2
    have hh := h22 n hn1 hn2
    have h00 := List.getElem?_eq_getElem
      (show n < st0.sparse_blocks_cardinalities.length by rw [h0.1]; exact hn2)
    rw [h00] at hh ⊢
    simp only [Option.map_some] at hh ⊢
    simp only [Stats.accumulate]
    rw [hist_acc h21 s9 hn1 hn2 hh (s10 n hn2), lsum_append, lsum_cons, lsum_nil, e4]
    congr 1; omega
  case hist_len =>
    simp only [Stats.accumulate]
    match st.sparse_blocks_cardinalities, sp.sparse_blocks_cardinalities, h21, s9 with
    | p :: a, q :: b, h21, s9 => simp at h21 s9; simp [h21, s9]
  case hist0 =>
    simp only [Stats.accumulate]
    match hc : st.sparse_blocks_cardinalities, h21 with
    | p :: a, _ => rw [hc] at h28; simpa using h28
  case nb_len => simp [Stats.accumulate, h23]
  case ni_len => simp [Stats.accumulate, h25]
  case nb =>
    intro n
    simp only [Stats.accumulate, lsum_append, lsum_cons, lsum_nil, e6, Nat.add_zero]
    exact hist_set hx n (h24 n)
  case ni =>
    intro n
    simp only [Stats.accumulate, lsum_append, lsum_cons, lsum_nil, e7, Nat.add_zero]
    exact hist_set hy n (h26 n)
  all_goals
    simp only [Stats.accumulate, lsum_append, lsum_cons, lsum_nil, e1, e2, e3, e4, e5, e9, Nat.add_zero,
      Nat.zero_mul, Nat.one_mul, List.length_append, List.length_cons, List.length_nil]
    first | assumption | omega

/-- One iteration of the chunk loop on a non-empty slice. -/
theorem encode_chunk_step_spec {dbg : Bool} {i : Nat} {vs B : List Nat} {e : EncState}
    {st0 : Stats} {cs : List Chk}
    (hi : i < 65535) {L R N : Nat} (hL : L = 65536 * i) (hR : R = L + 65536)
    (hN : u32 (R + chunk_size) = N) (hs : vs.Pairwise (· < ·)) (hb : ∀ v ∈ vs, v < 65536) (hne : vs ≠ [])
    (hB : ∀ x ∈ B, R ≤ x)
    (hr : e.rest = vs.map (L + ·) ++ B) (hes : e.s = ⟨L, R⟩)
    (hblk : e.block = []) (h0 : st0.ArraysOk) (hst : StInv st0 e.stats cs i) :
    ∃ st', encode_chunk_step dbg i e = .ok
      { rest := B, s := ⟨R, N⟩,
        header := e.header ++ hdrWords ⟨i, bodyOf vs⟩, tmp := e.tmp ++ bodyBytes (bodyOf vs),
        block := [], stats := st' } ∧ StInv st0 st' (cs ++ [⟨i, bodyOf vs⟩]) (i + 1) := by
  have hl : L + 65536 ≤ 4294967295 := by omega
  have hB' : ∀ x ∈ B, L + 65536 ≤ x := fun x hx => by have := hB x hx; omega
  have hlen1 := List.length_pos_iff.mpr hne
  have hlen2 := sorted_length_le' hs hb
  have hcc := chunk_cardinality_spec (dbg := dbg) hl hs hb hne hB'
  have hwb := write_bits_spec (dbg := dbg) (base := L) (n := 1024) (A := vs) (B := B)
    (out := e.tmp) (fun a ha => by have := hb a ha; omega)
  have hdrop : (vs.map (L + ·) ++ B).drop vs.length = B := by
    rw [← List.length_map (f := (L + ·)), List.drop_left]
  have hcard : (⟨i, bodyOf vs⟩ : Chk).card = vs.length := by
    unfold Chk.card; rw [bodyOf_vals hs hb]
  obtain ⟨v, vt, rfl⟩ : ∃ v vt, vs = v :: vt := by
    cases vs with
    | nil => exact absurd rfl hne
    | cons v vt => exact ⟨v, vt, rfl⟩
  have hv := hb v (by simp)
  have e8 : u32 (bytes_for chunk_size) = 8192 := by decide
  unfold encode_chunk_step
  rw [hr, hes, hblk]
  simp only [List.map_cons, List.cons_append]
  rw [if_pos (by omega)]
  have hcc' : chunk_cardinality dbg ((L + v) :: (vt.map (L + ·) ++ B))
      ⟨L, R⟩ = .ok (v :: vt).length := by
    rw [hR]; exact hcc
  replace hwb : write_bits dbg ((L + v) :: (vt.map (L + ·) ++ B)) (v :: vt).length
      chunk_size (L) e.tmp = _ := hwb
  replace hdrop : ((L + v) :: (vt.map (L + ·) ++ B)).drop (v :: vt).length = B := hdrop
  rw [hcc']
  simp only [ok_bind]
  rw [u16_lt (show i < 65536 by omega), u16_lt (show (v :: vt).length - 1 < 65536 by omega),
    hwb, hdrop, hN]
  by_cases hsp : (v :: vt).length < 32768
  · rw [if_pos (show (v :: vt).length < chunk_sparseness_threshold from hsp)]
    obtain ⟨sp, k, e1, hk, hks, hspi⟩ := sparse_chunk_bitsize_spec (dbg := dbg) hl hs hb hne hB'
    have e1' : sparse_chunk_bitsize dbg ((L + v) :: (vt.map (L + ·) ++ B))
      ⟨L, R⟩ = .ok sp := by
      rw [hR]; exact e1
    rw [e1']
    simp only [ok_bind]
    have hbytes : (sp.dense_blocks * 16 + sp.sparse_blocks * 8 + sp.dense_blocks_bits
            + sp.sparse_blocks_bits) / 8
        = 2 * (blocksTo (v :: vt) 256).length + blkBytes (blocksTo (v :: vt) 256) := by
      rw [hspi.dense_blocks, hspi.sparse_blocks, hspi.dense_bits, hspi.sparse_bits, blkBytes_bits,
        Nat.mul_div_cancel_left _ (by omega)]
    rw [hbytes]
    have hbe := blkElems_blocksTo hs hb
    rw [← hbe] at hks
    have hbo' : bodyOf (v :: vt) = if 8192 ≤ 2 * (blocksTo (v :: vt) 256).length
        + blkBytes (blocksTo (v :: vt) 256) then .dense (v :: vt) else .sparse (blocksTo (v :: vt) 256) := by
      unfold bodyOf; rw [if_pos hsp]
    have e2 := encode_sparse_chunk_spec (dbg := dbg) (out := e.tmp) hl hs hb hne hB'
    have e2' : encode_sparse_chunk dbg ((L + v) :: (vt.map (L + ·) ++ B))
      ⟨L, R⟩ [] e.tmp
        = .ok ([], e.tmp ++ bodyBytes (.sparse (blocksTo (v :: vt) 256))) := by
      rw [hR]; exact e2
    clear e2 e1 e1' hcc hcc'
    have hbw := bodyOf_wf hs hb hne
    generalize hbs : blocksTo (v :: vt) 256 = bs at *
    generalize hbd : bodyOf (v :: vt) = body at *
    generalize hln : (v :: vt).length = len at *
    by_cases hdn : 8192 ≤ 2 * bs.length + blkBytes bs
    · rw [if_pos (by rw [e8]; exact hdn)]
      have hbo : body = .dense (v :: vt) := by
        rw [hbo', if_pos hdn]
      refine ⟨_, ?_, hst.dense (c := ⟨i, body⟩) hbo⟩
      rw [hbo] at hcard ⊢
      simp only [pure_ok, hdrWords, hcard, Body.packed, Body.off, bodyBytes, List.append_assoc]
      rfl
    · rw [if_neg (by rw [e8]; exact hdn)]
      have hbo : body = .sparse bs := by
        rw [hbo', if_neg hdn]
      rw [hbo] at hbw
      have hn1 := List.length_pos_iff.mpr hbw.1
      have hn2 := hbw.2.length_le
      have hnb : u16 (sp.dense_blocks + sp.sparse_blocks) = bs.length := by
        rw [hspi.dense_blocks, hspi.sparse_blocks, nblocks_split, u16_lt (by omega)]
      rw [hnb, cassert_of (by
        simp only [chunk_size, block_size, Bool.and_eq_true, decide_eq_true_eq]; omega)]
      simp only [ok_bind]
      obtain ⟨x, hi1⟩ : ∃ x, e.stats.num_blocks_in_chunks[bs.length]? = some x :=
        ⟨_, List.getElem?_eq_getElem (by rw [hst.nb_len]; omega)⟩
      obtain ⟨y, hi2⟩ : ∃ y, e.stats.num_integers[bs.length]? = some y :=
        ⟨_, List.getElem?_eq_getElem (by rw [hst.ni_len]; omega)⟩
      have ar1 := arr_add_of (d := 1) hi1
      have ar2 := arr_add_of (d := len) hi2
      have hpk := packed_eq (n := bs.length - 1) (by omega)
      rw [hpk, u16_lt (show 2 * bs.length + blkBytes bs < 65536 by omega)]
      generalize hpk' : 1 + 256 * (bs.length - 1) = pk
      generalize hoff' : 2 * bs.length + blkBytes bs = off
      simp only [ar1, ar2, e2', ok_bind, pure_ok]
      refine ⟨_, ?_, hst.sparse (c := ⟨i, body⟩) hbo hspi hks h0 hi1 hi2⟩
      rw [hbo] at hcard ⊢
      simp only [hdrWords, hcard, Body.packed, Body.off, List.append_assoc, hpk', hoff']
      rfl
  · rw [if_neg (show ¬ (v :: vt).length < chunk_sparseness_threshold from hsp)]
    by_cases hfl : (v :: vt).length = 65536
    · rw [if_pos (show (v :: vt).length = chunk_size from hfl)]
      have hbo : bodyOf (v :: vt) = .full := by
        unfold bodyOf; rw [if_neg hsp, if_pos hfl]
      refine ⟨_, ?_, hst.full (c := ⟨i, bodyOf (v :: vt)⟩) hbo⟩
      rw [hbo] at hcard ⊢
      simp only [pure_ok, hdrWords, hcard, Body.packed, Body.off, bodyBytes, List.append_assoc,
        List.append_nil]
      rfl
    · rw [if_neg (show ¬ (v :: vt).length = chunk_size from hfl)]
      have hbo : bodyOf (v :: vt) = .dense (v :: vt) := by
        unfold bodyOf; rw [if_neg hsp, if_neg hfl]
      refine ⟨_, ?_, hst.dense (c := ⟨i, bodyOf (v :: vt)⟩) hbo⟩
      rw [hbo] at hcard ⊢
      rw [cassert_of (by
        rw [e8, decide_eq_true_eq]; omega)]
      simp only [ok_bind, pure_ok, hdrWords, hcard, Body.packed, Body.off, bodyBytes,
        List.append_assoc]
      rfl

/-! ## The chunk loop -/

theorem filter_split {L : List Nat} (h : L.Pairwise (· ≤ ·)) {a b : Nat} (hab : a ≤ b) :
    L.filter (fun x => decide (a ≤ x))
      = L.filter (fun x => decide (a ≤ x ∧ x < b)) ++ L.filter (fun x => decide (b ≤ x)) := by
  induction L with
  | nil => rfl
  | cons x L ih =>
    rw [List.pairwise_cons] at h
    by_cases h1 : a ≤ x
    · by_cases h2 : x < b
      · rw [List.filter_cons_of_pos (by simpa using h1), List.filter_cons_of_pos (by simp [h1, h2]),
          List.filter_cons_of_neg (by simp; omega), ih h.2, List.cons_append]
      · have hnil : (x :: L).filter (fun x => decide (a ≤ x ∧ x < b)) = [] := by
          rw [List.filter_eq_nil_iff]
          intro y hy
          have : x ≤ y := by
            rcases List.mem_cons.mp hy with rfl | hy
            · omega
            · exact h.1 y hy
          simp; omega
        rw [hnil, List.nil_append]
        apply List.filter_congr
        intro y hy
        have : x ≤ y := by
          rcases List.mem_cons.mp hy with rfl | hy
          · omega
          · exact h.1 y hy
        rw [decide_eq_decide]; omega
    · rw [List.filter_cons_of_neg (by simpa using h1), List.filter_cons_of_neg (by simp; omega),
        List.filter_cons_of_neg (by simp; omega), ih h.2]

theorem chunkVals_map (xs : List Nat) (i : Nat) :
    (chunkVals xs i).map (65536 * i + ·)
      = xs.filter (fun x => decide (65536 * i ≤ x ∧ x < 65536 * (i + 1))) := by
  unfold chunkVals
  rw [List.map_map]
  have e1 : xs.filter (fun x => x / 65536 == i)
      = xs.filter (fun x => decide (65536 * i ≤ x ∧ x < 65536 * (i + 1))) := by
    apply List.filter_congr
    intro x _
    rw [Bool.eq_iff_iff, beq_iff_eq, decide_eq_true_iff]
    omega
  rw [← e1]
  have : ∀ x ∈ xs.filter (fun x => x / 65536 == i),
      ((65536 * i + ·) ∘ (· % 65536)) x = id x := by
    intro x hx
    rw [List.mem_filter, beq_iff_eq] at hx
    simp only [Function.comp, id]
    omega
  rw [List.map_congr_left this, List.map_id]

theorem rest_split {xs : List Nat} (h : xs.Pairwise (· ≤ ·)) (i : Nat) :
    xs.filter (fun x => decide (65536 * i ≤ x))
      = (chunkVals xs i).map (65536 * i + ·)
        ++ xs.filter (fun x => decide (65536 * (i + 1) ≤ x)) := by
  rw [filter_split h (b := 65536 * (i + 1)) (by omega), chunkVals_map]

/-- State of the chunk loop before iteration `i`. -/
structure EncInv (st0 : Stats) (xs : List Nat) (i : Nat) (e : EncState) : Prop where
  rest : e.rest = xs.filter (fun x => decide (65536 * i ≤ x))
  s : e.s = ⟨65536 * i, u32 (65536 * (i + 1))⟩
  header : e.header = (chunksTo xs i).flatMap hdrWords
  tmp : e.tmp = (chunksTo xs i).flatMap (fun c => bodyBytes c.body)
  block : e.block = []
  stats : StInv st0 e.stats (chunksTo xs i) i

/-- One iteration of the chunk loop on an empty slice. -/
theorem encode_chunk_step_empty {dbg : Bool} {i x : Nat} {t : List Nat} {e : EncState}
    (hre : e.rest = x :: t) (hx : ¬ x < e.s.right) :
    encode_chunk_step dbg i e = .ok { e with
      s := ⟨e.s.right, u32 (e.s.right + chunk_size)⟩
      stats := { e.stats with empty_chunks := e.stats.empty_chunks + 1 } } := by
  unfold encode_chunk_step
  simp only [hre]
  rw [if_neg hx]
  rfl

theorem EncInv.step {dbg : Bool} {st0 : Stats} {xs : List Nat} {i : Nat} {e : EncState}
    (h : EncInv st0 xs i e) (hx : xs.Pairwise (· ≤ ·)) (hc : (chunkVals xs i).Pairwise (· < ·))
    (hi : i < 65535) (hm : ∃ x ∈ xs, 65536 * i ≤ x) (h0 : st0.ArraysOk) :
    ∃ e', encode_chunk_step dbg i e = .ok e' ∧ EncInv st0 xs (i + 1) e' := by
  have hs := h.s
  rw [u32_lt (by omega)] at hs
  have hr := h.rest
  rw [rest_split hx] at hr
  by_cases hne : chunkVals xs i = []
  · rw [hne] at hr
    simp only [List.map_nil, List.nil_append] at hr
    cases hre : e.rest with
    | nil =>
      obtain ⟨x, hxm, hxi⟩ := hm
      have : x ∈ xs.filter (fun x => decide (65536 * i ≤ x)) := by
        rw [List.mem_filter]; exact ⟨hxm, by simpa using hxi⟩
      rw [← h.rest, hre] at this
      cases this
    | cons x t =>
      have hxb : 65536 * (i + 1) ≤ x := by
        have : x ∈ e.rest := by rw [hre]; simp
        rw [hr, List.mem_filter, decide_eq_true_iff] at this
        exact this.2
      have hcs : chunksTo xs (i + 1) = chunksTo xs i := by
        rw [chunksTo_succ, if_pos hne, List.append_nil]
      have e1 := encode_chunk_step_empty (dbg := dbg) (i := i) hre (by rw [hs]; exact Nat.not_lt.mpr hxb)
      rw [hs] at e1
      refine ⟨_, e1, ?_⟩
      · refine ⟨?_, ?_, ?_, ?_, h.block, ?_⟩
        · exact hr
        · simp only [chunk_size]
          rw [show 65536 * (i + 1) + 65536 = 65536 * (i + 1 + 1) by omega]
        · rw [hcs]; exact h.header
        · rw [hcs]; exact h.tmp
        · rw [hcs]; exact h.stats.empty
  · have hst := h.stats
    obtain ⟨st', e1, hst'⟩ := encode_chunk_step_spec (dbg := dbg) hi (L := 65536 * i)
      (R := 65536 * (i + 1)) rfl (by omega) rfl hc chunkVals_lt hne (by
        intro x hx
        rw [List.mem_filter, decide_eq_true_iff] at hx
        exact hx.2) hr hs h.block h0 hst
    have hcs : chunksTo xs (i + 1) = chunksTo xs i ++ [⟨i, bodyOf (chunkVals xs i)⟩] := by
      rw [chunksTo_succ, if_neg hne]
    refine ⟨_, e1, ⟨rfl, ?_, ?_, ?_, rfl, ?_⟩⟩
    · simp only [chunk_size]
      rw [show 65536 * (i + 1) + 65536 = 65536 * (i + 1 + 1) by omega]
    · rw [hcs, List.flatMap_append, ← h.header]; simp
    · rw [hcs, List.flatMap_append, ← h.tmp]; simp
    · rw [hcs]; exact hst'

theorem EncInv.steps {dbg : Bool} {st0 : Stats} {xs : List Nat} (hx : xs.Pairwise (· ≤ ·))
    (h0 : st0.ArraysOk) (n : Nat) {i : Nat} {e : EncState} (h : EncInv st0 xs i e)
    (hc : ∀ j, j < i + n → (chunkVals xs j).Pairwise (· < ·)) (hi : i + n ≤ 65535)
    (hm : ∃ x ∈ xs, 65536 * (i + n) ≤ x + 65536) :
    ∃ e', encode_chunks dbg n i e = .ok e' ∧ EncInv st0 xs (i + n) e' := by
  induction n generalizing i e with
  | zero => exact ⟨e, rfl, h⟩
  | succ n ih =>
    obtain ⟨x, hxm, hxi⟩ := hm
    obtain ⟨e1, h1, h1'⟩ := h.step (dbg := dbg) hx (hc i (by omega)) (by omega)
      ⟨x, hxm, by omega⟩ h0
    obtain ⟨e2, h2, h2'⟩ := ih h1' (fun j hj => hc j (by omega)) (by omega) ⟨x, hxm, by omega⟩
    refine ⟨e2, ?_, by rw [show i + (n + 1) = i + 1 + n by omega]; exact h2'⟩
    unfold encode_chunks
    rw [h1]; exact h2

theorem encode_chunks_add {dbg : Bool} (a b i : Nat) (e : EncState) :
    encode_chunks dbg (a + b) i e = (do
      let e' ← encode_chunks dbg a i e
      encode_chunks dbg b (i + a) e') := by
  induction a generalizing i e with
  | zero => simp [encode_chunks]
  | succ a ih =>
    rw [show a + 1 + b = (a + b) + 1 by omega]
    simp only [encode_chunks]
    cases encode_chunk_step dbg i e with
    | error x => rfl
    | ok e1 =>
      simp only [ok_bind]
      rw [ih, show i + 1 + a = i + (a + 1) by omega]

/-! ## Skip pointers -/

theorem hdrWords_get {cs : List Chk} {k : Nat} {c : Chk} (h : cs[k]? = some c) :
    (cs.flatMap hdrWords)[4 * k + 1]? = some (c.card - 1) ∧
    (cs.flatMap hdrWords)[4 * k + 3]? = some c.body.off := by
  induction cs generalizing k with
  | nil => simp at h
  | cons d cs ih =>
    rw [List.flatMap_cons]
    cases k with
    | zero => simp at h; subst h; exact ⟨rfl, rfl⟩
    | succ k =>
      rw [List.getElem?_cons_succ] at h
      obtain ⟨h1, h2⟩ := ih h
      constructor
      · rw [List.getElem?_append_right (by simp [hdrWords]; omega)]
        rw [show 4 * (k + 1) + 1 - (hdrWords d).length = 4 * k + 1 by simp [hdrWords]; omega]
        exact h1
      · rw [List.getElem?_append_right (by simp [hdrWords]; omega)]
        rw [show 4 * (k + 1) + 3 - (hdrWords d).length = 4 * k + 3 by simp [hdrWords]; omega]
        exact h2

theorem pointer_group_spec {cs : List Chk} (hw : ∀ c ∈ cs, c.WF) (hs : ∀ c ∈ cs, c.Small)
    (n k c o : Nat) (hk : k + n ≤ cs.length) (hc : c + 65536 * n < 4294967296)
    (ho : o + 8192 * n < 4294967296) :
    pointer_group (cs.flatMap hdrWords) n (4 * k) c o
      = .ok (c + cardSum ((cs.drop k).take n), o + offSum ((cs.drop k).take n)) := by
  induction n generalizing k c o with
  | zero => simp [pointer_group]
  | succ n ih =>
    have hlt : k < cs.length := by omega
    have hd := List.drop_eq_getElem_cons hlt
    obtain ⟨h1, h2⟩ := hdrWords_get (List.getElem?_eq_getElem hlt)
    have hmem : cs[k] ∈ cs := List.getElem_mem hlt
    have w1 := (hw _ hmem).card_le
    have w2 := (hw _ hmem).card_pos
    have w3 := Chk.off_le (hs _ hmem)
    unfold pointer_group
    rw [rdv_of h1, rdv_of h2]
    simp only [ok_bind]
    rw [show cs[k].card - 1 + 1 = cs[k].card by omega, u32_lt (by omega), u32_lt (by omega),
      show 4 * k + 4 = 4 * (k + 1) by omega, ih (k + 1) _ _ (by omega) (by omega) (by omega), hd,
      List.take_succ_cons, cardSum_cons, offSum_cons]
    simp only [Nat.add_assoc]

theorem pointer_bytes_spec {cs : List Chk} (hw : ∀ c ∈ cs, c.WF) (hs : ∀ c ∈ cs, c.Small)
    (n i : Nat) (hn : 32 * (i + n) ≤ cs.length) (hl : cs.length ≤ 65535) :
    pointer_bytes (cs.flatMap hdrWords) n i = .ok (ptrBytes cs i n) := by
  induction n generalizing i with
  | zero => simp [pointer_bytes, ptrBytes]
  | succ n ih =>
    unfold pointer_bytes
    rw [show i * 4 * associativity = 4 * (32 * i) by simp only [associativity]; omega,
      u32_lt (by omega), pointer_group_spec hw hs 32 (32 * i) 0 0 (by omega) (by omega) (by omega),
      ih (i + 1) (by omega)]
    simp only [ok_bind, pure_ok, Nat.zero_add]
    rw [ptrBytes, ptrBytes, List.range'_succ, List.flatMap_cons]

/-! ## `encode_sequence` -/

/-- header bits added for a sequence with `k` chunks -/
def headerBits (k : Nat) : Nat := k * 16 * 4 + 16 + k / 32 * 4 * 8 + k / 32 * 4 * 8

/-- the counters at the end of `encode_sequence` -/
structure SeqStats (st0 st : Stats) (cs : List Chk) (n k : Nat) : Prop where
  inv : StInv { st0 with
      sequences := st0.sequences + 1, integers := st0.integers + n, chunks := st0.chunks + k }
    { st with chunks_header_bits := st0.chunks_header_bits } cs k
  header_bits : st.chunks_header_bits = st0.chunks_header_bits + headerBits cs.length

theorem encInv_init {xs : List Nat} {st : Stats} (h0 : st.ArraysOk) : EncInv st xs 0
    { rest := xs, s := { left := 0, right := chunk_size }, header := [], tmp := [],
        block := [], stats := st } := by
  refine ⟨?_, rfl, rfl, rfl, rfl, stInv_init h0⟩
  symm
  rw [List.filter_eq_self]
  simp

/-- Encoding once the chunk loop is done. -/
theorem encode_sequence_tail {e : EncState} {cs : List Chk} {out : List UInt8}
    (hw : ChunksWF cs) (hs : ∀ c ∈ cs, c.Small) (hne : cs ≠ [])
    (hh : e.header = cs.flatMap hdrWords) (ht : e.tmp = cs.flatMap (fun c => bodyBytes c.body)) :
    (do
      let chunks := u32 (e.header.length / 4)
      let offsets := chunks / associativity
      let ptrs ← pointer_bytes e.header offsets 0
      let out := out ++ le16 (u16 (sub32 chunks 1)) ++ ptrs ++ e.header.flatMap le16 ++ e.tmp
      let st := e.stats
      let st := { st with
        chunks_header_bits :=
          st.chunks_header_bits + (chunks * 16 * 4 + 16 + offsets * 4 * 8 + offsets * 4 * 8) }
      return (e.block, st, out) : Res (List Nat × Stats × List UInt8))
    = .ok (e.block, { e.stats with
        chunks_header_bits := e.stats.chunks_header_bits + headerBits cs.length }, out ++ seqBytes cs) := by
  have hl := hw.length_le
  have hpos := List.length_pos_iff.mpr hne
  rw [hh, ht, hdrWords_length, Nat.mul_div_cancel_left _ (by omega : 0 < 4), u32_lt (by omega)]
  simp only
  rw [sub32_eq (by omega) (by omega), u16_lt (by omega),
    pointer_bytes_spec hw.2 hs _ 0 (by simp only [associativity]; omega) hl]
  simp only [ok_bind, pure_ok, headerBits, seqBytes, associativity, List.append_assoc]

theorem chunkVals_none {xs : List Nat} {k : Nat} (h : ∀ x ∈ xs, x / 65536 ≠ k) :
    chunkVals xs k = [] := by
  unfold chunkVals
  rw [List.map_eq_nil_iff, List.filter_eq_nil_iff]
  intro x hx; rw [beq_iff_eq]; exact h x hx

theorem chunksTo_last {xs : List Nat} {k n : Nat} (h : ∀ x ∈ xs, x / 65536 < k) (hn : k ≤ n) :
    chunksTo xs n = chunksTo xs k := by
  induction n with
  | zero => rw [show k = 0 by omega]
  | succ n ih =>
    by_cases hc : k = n + 1
    · rw [hc]
    · rw [chunksTo_succ, ih (by omega), chunkVals_none (fun x hx => by have := h x hx; omega)]
      simp

/-- the chunks of a list -/
def chunksOf (xs : List Nat) : List Chk := chunksTo xs 65535

theorem chunksOf_wf {xs : List Nat} (h : xs.Pairwise (· < ·)) : ChunksWF (chunksOf xs) :=
  chunksTo_wf h (Nat.le_refl _)

theorem chunksOf_small {xs : List Nat} (h : xs.Pairwise (· < ·)) : ∀ c ∈ chunksOf xs, c.Small :=
  chunksTo_small h _

theorem seqElems_chunksOf {xs : List Nat} (h : Valid xs) : seqElems (chunksOf xs) = xs := by
  unfold chunksOf
  rw [seqElems_chunksTo h.2.1 (Nat.le_refl _), List.filter_eq_self]
  intro x hx
  have := h.2.2 x hx
  simp; omega

theorem chunksOf_ne_nil {xs : List Nat} (h : Valid xs) : chunksOf xs ≠ [] := by
  intro hc
  have := seqElems_chunksOf h
  rw [hc] at this
  exact h.1 this.symm

theorem getLast_max {xs : List Nat} (h : xs.Pairwise (· ≤ ·)) (hne : xs ≠ []) :
    ∃ u, xs.getLast? = some u ∧ u ∈ xs ∧ ∀ x ∈ xs, x ≤ u := by
  refine ⟨xs.getLast hne, List.getLast?_eq_some_getLast hne, List.getLast_mem hne, ?_⟩
  intro x hx
  have := List.dropLast_concat_getLast hne
  rw [← this] at h hx
  rw [List.pairwise_append] at h
  rcases List.mem_append.mp hx with hx | hx
  · exact h.2.2 x hx _ (by simp)
  · simp at hx; omega

theorem num_chunks_eq {u : Nat} (h : u < 4294967296) : num_chunks u = u / 65536 + 1 := by
  unfold num_chunks
  simp only [chunk_size]
  rw [u32_lt (by omega)]
  omega

theorem lt_le {xs : List Nat} (h : xs.Pairwise (· < ·)) : xs.Pairwise (· ≤ ·) :=
  h.imp (fun h => Nat.le_of_lt h)

theorem StInv.with_header_bits {st0 st : Stats} {cs : List Chk} {k h : Nat} (hst : StInv st0 st cs k)
    (hh : h = st.chunks_header_bits) : StInv st0 { st with chunks_header_bits := h } cs k := by
  subst hh; exact hst

theorem encode_sequence_spec {dbg : Bool} {xs : List Nat} (hv : Valid xs) {st : Stats}
    (h0 : st.ArraysOk) {out : List UInt8} :
    ∃ st' k, encode_sequence dbg xs [] st out = .ok ([], st', out ++ seqBytes (chunksOf xs)) ∧
      SeqStats st st' (chunksOf xs) xs.length k ∧ (∃ u ∈ xs, (∀ x ∈ xs, x ≤ u) ∧ k = u / 65536 + 1) := by
  have hle := lt_le hv.2.1
  obtain ⟨u, hu, hum, hmax⟩ := getLast_max hle hv.1
  have hub := hv.2.2 u hum
  have hnc := num_chunks_eq (u := u) (by omega)
  have hlast : chunksTo xs (u / 65536 + 1) = chunksOf xs :=
    (chunksTo_last (fun x hx => by have := hmax x hx; omega) (by omega)).symm
  obtain ⟨e, he, hinv⟩ := EncInv.steps (dbg := dbg) hle (st0 := { st with
      sequences := st.sequences + 1
      integers := st.integers + xs.length
      chunks := st.chunks + (u / 65536 + 1) }) h0 (u / 65536 + 1) (encInv_init h0)
    (fun j _ => chunkVals_sorted hv.2.1 j) (by omega) ⟨u, hum, by omega⟩
  rw [Nat.zero_add] at hinv
  have hrest : e.rest = [] := by
    rw [hinv.rest, List.filter_eq_nil_iff]
    intro x hx
    have := hmax x hx
    simp; omega
  have hst := hinv.stats
  rw [hlast] at hst
  have hval : encode_sequence dbg xs [] st out = .ok ([], { e.stats with
      chunks_header_bits := e.stats.chunks_header_bits + headerBits (chunksOf xs).length },
      out ++ seqBytes (chunksOf xs)) := by
    unfold encode_sequence
    rw [cassert_of (by rfl)]
    simp only [ok_bind, hu, hnc]
    rw [cassert_of (by simp only [chunk_size, Bool.and_eq_true, decide_eq_true_eq]; omega)]
    simp only [ok_bind, he]
    rw [cassert_of (by rw [hrest]; rfl)]
    simp only [ok_bind]
    have := encode_sequence_tail (e := e) (out := out) (chunksOf_wf hv.2.1) (chunksOf_small hv.2.1)
      (chunksOf_ne_nil hv) (by rw [hinv.header, hlast]) (by rw [hinv.tmp, hlast])
    rw [hinv.block] at this ⊢
    exact this
  refine ⟨_, u / 65536 + 1, hval, ⟨?_, ?_⟩, u, hum, hmax, rfl⟩
  · exact hst.with_header_bits hst.header_bits.symm
  · exact congrArg (· + headerBits (chunksOf xs).length) hst.header_bits

/-! ## The last slice -/

theorem chunkVals_filter {xs : List Nat} {i n : Nat} (hi : i < n) :
    chunkVals (xs.filter (fun x => decide (x < 65536 * n))) i = chunkVals xs i := by
  unfold chunkVals
  rw [List.filter_filter]
  congr 1
  apply List.filter_congr
  intro x _
  by_cases h : x / 65536 = i
  · simp [h]; omega
  · simp [h]

theorem chunksTo_filter {xs : List Nat} {n : Nat} :
    chunksTo (xs.filter (fun x => decide (x < 65536 * n))) n = chunksTo xs n := by
  have h : ∀ k, k ≤ n → chunksTo (xs.filter (fun x => decide (x < 65536 * n))) k = chunksTo xs k := by
    intro k hk
    induction k with
    | zero => rfl
    | succ k ih => rw [chunksTo_succ, chunksTo_succ, ih (by omega), chunkVals_filter (by omega)]
  exact h n (Nat.le_refl _)

theorem encode_chunks_one {dbg : Bool} (i : Nat) (e : EncState) :
    encode_chunks dbg 1 i e = encode_chunk_step dbg i e := by
  simp only [encode_chunks]
  cases encode_chunk_step dbg i e <;> rfl

theorem chunksOf_nil : chunksOf [] = [] :=
  chunksTo_last (xs := []) (k := 0) (by simp) (by omega)

/-- With a value in the last slice, the chunk loop leaves the input unconsumed. -/
theorem encode_chunks_last {dbg : Bool} {xs : List Nat} (hs : xs.Pairwise (· < ·))
    {u : Nat} (hum : u ∈ xs) (hu : 4294901760 ≤ u) {st : Stats} (h0 : st.ArraysOk) :
    ∃ e x t, encode_chunks dbg 65536 0
      { rest := xs, s := { left := 0, right := chunk_size }, header := [], tmp := [],
        block := [], stats := st } = .ok e ∧ e.rest = x :: t ∧
      e.header = (chunksOf xs).flatMap hdrWords ∧
      e.tmp = (chunksOf xs).flatMap (fun c => bodyBytes c.body) ∧ e.block = [] := by
  have hle := lt_le hs
  obtain ⟨e, he, hinv⟩ := EncInv.steps (dbg := dbg) hle h0 65535 (encInv_init h0)
    (fun j _ => chunkVals_sorted hs j) (by omega) ⟨u, hum, by omega⟩
  rw [Nat.zero_add] at hinv
  have hmem : u ∈ e.rest := by
    rw [hinv.rest, List.mem_filter, decide_eq_true_iff]
    exact ⟨hum, by omega⟩
  cases hr : e.rest with
  | nil => rw [hr] at hmem; cases hmem
  | cons x t =>
    have h1 := encode_chunk_step_empty (dbg := dbg) (i := 65535) hr (by
      rw [hinv.s]
      rw [show u32 (65536 * (65535 + 1)) = 0 by decide]
      exact Nat.not_lt_zero _)
    have h2 := encode_chunks_add (dbg := dbg) 65535 1 0
      { rest := xs, s := { left := 0, right := chunk_size }, header := [], tmp := [],
        block := [], stats := st }
    rw [he, ok_bind, encode_chunks_one, Nat.zero_add, h1] at h2
    exact ⟨_, x, t, h2, hr, hinv.header, hinv.tmp, hinv.block⟩

theorem chunksOf_filter (xs : List Nat) :
    chunksOf (xs.filter (fun x => decide (x < 4294901760))) = chunksOf xs :=
  chunksTo_filter (n := 65535)

theorem encode_sequence_last {xs : List Nat} (hs : xs.Pairwise (· < ·))
    (hb : ∀ x ∈ xs, x < 4294967296) {u : Nat} (hum : u ∈ xs) (hu : 4294901760 ≤ u) {st : Stats}
    (h0 : st.ArraysOk) {out : List UInt8} :
    encode_sequence true xs [] st out = .error .abort ∧
    ∃ st', encode_sequence false xs [] st out = .ok ([], st', out ++
      (if xs.filter (fun x => decide (x < 4294901760)) = [] then [255, 255]
        else seqBytes (chunksOf (xs.filter (fun x => decide (x < 4294901760)))))) := by
  obtain ⟨w, hw, hwm, hmax⟩ := getLast_max (lt_le hs) (List.ne_nil_of_mem hum)
  have h1 := hb w hwm
  have h2 := hmax u hum
  have hnc := num_chunks_eq (u := w) h1
  rw [show w / 65536 + 1 = 65536 by omega] at hnc
  have hys : chunksOf (xs.filter (fun x => decide (x < 4294901760))) = chunksOf xs :=
    chunksOf_filter xs
  constructor
  · obtain ⟨e, x, t, he, hr, -, -, -⟩ := encode_chunks_last (dbg := true) hs hum hu (st := { st with
        sequences := st.sequences + 1
        integers := st.integers + xs.length
        chunks := st.chunks + 65536 }) h0
    unfold encode_sequence
    rw [cassert_of (by rfl)]
    simp only [ok_bind, hw, hnc]
    rw [cassert_of (by decide)]
    simp only [ok_bind, he, hr]
    rfl
  · obtain ⟨e, x, t, he, hr, hh, ht, hbl⟩ := encode_chunks_last (dbg := false) hs hum hu (st := { st with
        sequences := st.sequences + 1
        integers := st.integers + xs.length
        chunks := st.chunks + 65536 }) h0
    unfold encode_sequence
    rw [cassert_of (by rfl)]
    simp only [ok_bind, hw, hnc]
    rw [cassert_of (by decide)]
    simp only [ok_bind, he]
    rw [show cassert false e.rest.isEmpty = .ok () from rfl]
    simp only [ok_bind]
    by_cases hne : xs.filter (fun x => decide (x < 4294901760)) = []
    · rw [if_pos hne]
      have hc : chunksOf xs = [] := by rw [← hys, hne]; exact chunksOf_nil
      rw [hh, ht, hc, hbl]
      simp only [List.flatMap_nil, List.length_nil]
      have hp : pointer_bytes [] (u32 (0 / 4) / associativity) 0 = .ok [] := rfl
      have hl : le16 (u16 (sub32 (u32 (0 / 4)) 1)) = [255, 255] := by decide
      rw [hp, hl]
      simp only [ok_bind, pure_ok, List.append_nil]
      exact ⟨_, rfl⟩
    · rw [if_neg hne, hys]
      have hc : chunksOf xs ≠ [] := by
        rw [← hys]
        refine chunksOf_ne_nil ⟨hne, hs.filter _, ?_⟩
        intro x hx
        rw [List.mem_filter, decide_eq_true_iff] at hx
        exact hx.2
      have := encode_sequence_tail (e := e) (out := out) (chunksOf_wf hs) (chunksOf_small hs) hc hh ht
      rw [hbl] at this ⊢
      exact ⟨_, this⟩

/-! ## Duplicates -/

theorem encode_chunk_step_dup {dbg : Bool} {i : Nat} {vs B : List Nat} {e : EncState}
    (hi : i < 65535) (hs : vs.Pairwise (· ≤ ·)) (hd : ¬ vs.Pairwise (· < ·))
    (hb : ∀ v ∈ vs, v < 65536)
    (hr : e.rest = vs.map (65536 * i + ·) ++ B) (hes : e.s = ⟨65536 * i, 65536 * (i + 1)⟩) :
    encode_chunk_step dbg i e = .error .exc := by
  have h1 := chunk_cardinality_loop_dup (dbg := dbg) (left := 65536 * i) (A := vs) (B := B)
    (prev := 4294967295) (c := 0) (by omega) hs hb (fun h => hd h.1) (fun _ _ => .inr rfl)
  cases vs with
  | nil => exact absurd (by simp) hd
  | cons v vt =>
    have hv := hb v (by simp)
    rw [show 65536 * i + 65536 = 65536 * (i + 1) by omega] at h1
    unfold encode_chunk_step
    simp only [List.map_cons, List.cons_append] at hr h1
    simp only [hr, hes]
    rw [if_pos (by omega)]
    unfold chunk_cardinality
    rw [h1]
    rfl

theorem exists_min_dup {xs : List Nat} (n : Nat) (h : ∃ j, j < n ∧ ¬ (chunkVals xs j).Pairwise (· < ·)) :
    ∃ j, j < n ∧ ¬ (chunkVals xs j).Pairwise (· < ·) ∧ ∀ k, k < j → (chunkVals xs k).Pairwise (· < ·) := by
  induction n with
  | zero => obtain ⟨j, hj, _⟩ := h; omega
  | succ n ih =>
    by_cases h1 : ∃ j, j < n ∧ ¬ (chunkVals xs j).Pairwise (· < ·)
    · obtain ⟨j, hj, h2, h3⟩ := ih h1
      exact ⟨j, by omega, h2, h3⟩
    · obtain ⟨j, hj, h2⟩ := h
      refine ⟨j, hj, h2, ?_⟩
      intro k hk
      exact Classical.byContradiction (fun hc => h1 ⟨k, by omega, hc⟩)

theorem chunkVals_le {xs : List Nat} (h : xs.Pairwise (· ≤ ·)) (i : Nat) :
    (chunkVals xs i).Pairwise (· ≤ ·) := by
  unfold chunkVals
  rw [List.pairwise_map]
  refine (h.filter _).imp_of_mem ?_
  intro a b ha hb hab
  rw [List.mem_filter, beq_iff_eq] at ha hb
  omega

/-- If every slice is strictly increasing, so is the list. -/
theorem sorted_of_chunkVals {xs : List Nat} (h : xs.Pairwise (· ≤ ·))
    (hc : ∀ j, (chunkVals xs j).Pairwise (· < ·)) : xs.Pairwise (· < ·) := by
  induction xs with
  | nil => simp
  | cons x xs ih =>
    rw [List.pairwise_cons] at h ⊢
    constructor
    · intro y hy
      have h1 := h.1 y hy
      by_cases he : y / 65536 = x / 65536
      · have h2 := hc (x / 65536)
        unfold chunkVals at h2
        rw [List.filter_cons_of_pos (by simp), List.map_cons, List.pairwise_cons] at h2
        have := h2.1 (y % 65536) (List.mem_map.mpr ⟨y, List.mem_filter.mpr ⟨hy, by simpa using he⟩, rfl⟩)
        omega
      · omega
    · apply ih h.2
      intro j
      have h2 := hc j
      unfold chunkVals at h2 ⊢
      by_cases hx : x / 65536 = j
      · rw [List.filter_cons_of_pos (by simpa using hx), List.map_cons, List.pairwise_cons] at h2
        exact h2.2
      · rw [List.filter_cons_of_neg (by simpa using hx)] at h2
        exact h2

theorem encode_sequence_dup {dbg : Bool} {xs : List Nat} (hs : xs.Pairwise (· ≤ ·))
    (hb : ∀ x ∈ xs, x < 4294901760) (hd : ¬ xs.Pairwise (· < ·)) {st : Stats} (h0 : st.ArraysOk)
    {out : List UInt8} : encode_sequence dbg xs [] st out = .error .exc := by
  have hne : xs ≠ [] := by rintro rfl; exact hd (by simp)
  obtain ⟨u, hu, hum, hmax⟩ := getLast_max hs hne
  have hub := hb u hum
  have hnc := num_chunks_eq (u := u) (by omega)
  have hex : ∃ j, j < u / 65536 + 1 ∧ ¬ (chunkVals xs j).Pairwise (· < ·) := by
    refine Classical.byContradiction (fun hc => hd (sorted_of_chunkVals hs ?_))
    intro j
    refine Classical.byContradiction (fun hj => hc ⟨j, ?_, hj⟩)
    refine Classical.byContradiction (fun hlt => hj ?_)
    rw [chunkVals_none (fun x hx => by have := hmax x hx; omega)]
    simp
  obtain ⟨j, hj, hjd, hmin⟩ := exists_min_dup _ hex
  obtain ⟨e, he, hinv⟩ := EncInv.steps (dbg := dbg) hs (st0 := { st with
      sequences := st.sequences + 1
      integers := st.integers + xs.length
      chunks := st.chunks + (u / 65536 + 1) }) h0 j (encInv_init h0)
    (fun k hk => hmin k (by omega)) (by omega) ⟨u, hum, by omega⟩
  rw [Nat.zero_add] at hinv
  have hsl := hinv.s
  rw [u32_lt (by omega)] at hsl
  have hstep := encode_chunk_step_dup (dbg := dbg) (i := j) (by omega) (chunkVals_le hs j) hjd
    chunkVals_lt (by rw [hinv.rest, rest_split hs]) hsl
  unfold encode_sequence
  rw [cassert_of (by rfl)]
  simp only [ok_bind, hu, hnc]
  rw [cassert_of (by simp only [chunk_size, Bool.and_eq_true, decide_eq_true_eq]; omega)]
  simp only [ok_bind]
  obtain ⟨d, hdq⟩ : ∃ d, u / 65536 + 1 = j + (d + 1) := ⟨u / 65536 - j, by omega⟩
  rw [show encode_chunks dbg (u / 65536 + 1) 0 = encode_chunks dbg (j + (d + 1)) 0 by rw [hdq]]
  rw [encode_chunks_add, he]
  simp only [ok_bind, encode_chunks, Nat.zero_add, hstep]
  rfl

end Sliced
