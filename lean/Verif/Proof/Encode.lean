import Verif.Proof.Layout
/-! # builder.hpp, building_util.hpp: the builder produces the layout of the sliced list -/
namespace Sliced

/-! ## Slicing a list -/

/-- values of block `j`, relative to the block -/
def blockVals (vs : List Nat) (j : Nat) : List Nat := (vs.filter (fun x => x / 256 == j)).map (· % 256)
/-- the non-empty blocks with number below `k` -/
def blocksTo (vs : List Nat) (k : Nat) : List Blk :=
  (List.range k).filterMap (fun j => if blockVals vs j = [] then none else some ⟨j, blockVals vs j⟩)
/-- the representation the builder chooses for the values of a chunk -/
def bodyOf (vs : List Nat) : Body :=
  if vs.length < 32768 then
    if 8192 ≤ 2 * (blocksTo vs 256).length + blkBytes (blocksTo vs 256) then .dense vs
    else .sparse (blocksTo vs 256)
  else if vs.length = 65536 then .full
  else .dense vs
/-- values of chunk `i`, relative to the chunk -/
def chunkVals (xs : List Nat) (i : Nat) : List Nat :=
  (xs.filter (fun x => x / 65536 == i)).map (· % 65536)
/-- the non-empty chunks with number below `n` -/
def chunksTo (xs : List Nat) (n : Nat) : List Chk :=
  (List.range n).filterMap (fun i =>
    if chunkVals xs i = [] then none else some ⟨i, bodyOf (chunkVals xs i)⟩)

theorem blocksTo_succ (vs : List Nat) (k : Nat) :
    blocksTo vs (k + 1) = blocksTo vs k ++
      (if blockVals vs k = [] then [] else [⟨k, blockVals vs k⟩]) := by
  unfold blocksTo
  rw [List.range_succ, List.filterMap_append]
  congr 1
  by_cases h : blockVals vs k = [] <;> simp [h]

theorem chunksTo_succ (xs : List Nat) (k : Nat) :
    chunksTo xs (k + 1) = chunksTo xs k ++
      (if chunkVals xs k = [] then [] else [⟨k, bodyOf (chunkVals xs k)⟩]) := by
  unfold chunksTo
  rw [List.range_succ, List.filterMap_append]
  congr 1
  by_cases h : chunkVals xs k = [] <;> simp [h]

theorem mem_blocksTo {vs : List Nat} {k : Nat} {b : Blk} :
    b ∈ blocksTo vs k ↔ b.id < k ∧ b.vals = blockVals vs b.id ∧ blockVals vs b.id ≠ [] := by
  unfold blocksTo
  rw [List.mem_filterMap]
  constructor
  · rintro ⟨j, hj, h⟩
    split at h
    · cases h
    · rename_i hne
      cases h
      exact ⟨List.mem_range.mp hj, rfl, hne⟩
  · rintro ⟨h1, h2, h3⟩
    refine ⟨b.id, List.mem_range.mpr h1, ?_⟩
    rw [if_neg h3, ← h2]

theorem mem_chunksTo {xs : List Nat} {k : Nat} {c : Chk} :
    c ∈ chunksTo xs k ↔ c.id < k ∧ c.body = bodyOf (chunkVals xs c.id) ∧ chunkVals xs c.id ≠ [] := by
  unfold chunksTo
  rw [List.mem_filterMap]
  constructor
  · rintro ⟨j, hj, h⟩
    split at h
    · cases h
    · rename_i hne
      cases h
      exact ⟨List.mem_range.mp hj, rfl, hne⟩
  · rintro ⟨h1, h2, h3⟩
    refine ⟨c.id, List.mem_range.mpr h1, ?_⟩
    rw [if_neg h3, ← h2]

theorem mem_blockVals {vs : List Nat} {j v : Nat} :
    v ∈ blockVals vs j ↔ v < 256 ∧ j * 256 + v ∈ vs := by
  unfold blockVals
  rw [List.mem_map]
  constructor
  · rintro ⟨x, hx, rfl⟩
    rw [List.mem_filter, beq_iff_eq] at hx
    refine ⟨by omega, ?_⟩
    rw [show j * 256 + x % 256 = x by omega]; exact hx.1
  · rintro ⟨h1, h2⟩
    refine ⟨_, List.mem_filter.mpr ⟨h2, ?_⟩, by omega⟩
    rw [beq_iff_eq]; omega

theorem mem_chunkVals {xs : List Nat} {i v : Nat} :
    v ∈ chunkVals xs i ↔ v < 65536 ∧ i * 65536 + v ∈ xs := by
  unfold chunkVals
  rw [List.mem_map]
  constructor
  · rintro ⟨x, hx, rfl⟩
    rw [List.mem_filter, beq_iff_eq] at hx
    refine ⟨by omega, ?_⟩
    rw [show i * 65536 + x % 65536 = x by omega]; exact hx.1
  · rintro ⟨h1, h2⟩
    refine ⟨_, List.mem_filter.mpr ⟨h2, ?_⟩, by omega⟩
    rw [beq_iff_eq]; omega

theorem sorted_filter_mod {xs : List Nat} (h : xs.Pairwise (· < ·)) (K i : Nat) :
    ((xs.filter (fun x => x / K == i)).map (· % K)).Pairwise (· < ·) := by
  rw [List.pairwise_map]
  have h1 := h.filter (fun x => x / K == i)
  refine h1.imp_of_mem ?_
  intro a b ha hb hab
  rw [List.mem_filter, beq_iff_eq] at ha hb
  have e1 := Nat.div_add_mod a K
  have e2 := Nat.div_add_mod b K
  rw [ha.2] at e1; rw [hb.2] at e2
  omega

theorem blockVals_sorted {vs : List Nat} (h : vs.Pairwise (· < ·)) (j : Nat) :
    (blockVals vs j).Pairwise (· < ·) := sorted_filter_mod h 256 j

theorem chunkVals_sorted {xs : List Nat} (h : xs.Pairwise (· < ·)) (i : Nat) :
    (chunkVals xs i).Pairwise (· < ·) := sorted_filter_mod h 65536 i

theorem blockVals_lt {vs : List Nat} {j : Nat} : ∀ v ∈ blockVals vs j, v < 256 :=
  fun _ h => (mem_blockVals.mp h).1

theorem chunkVals_lt {xs : List Nat} {i : Nat} : ∀ v ∈ chunkVals xs i, v < 65536 :=
  fun _ h => (mem_chunkVals.mp h).1

theorem filterMap_range_sorted {α : Type} {f : Nat → Option α} {key : α → Nat} (n : Nat)
    (h : ∀ j a, f j = some a → key a = j) :
    ((List.range n).filterMap f).Pairwise (fun a b => key a < key b) := by
  have hs := range_sorted n
  rw [List.pairwise_filterMap]
  refine hs.imp ?_
  intro a b hab x hx y hy
  rw [h a x hx, h b y hy]; exact hab

theorem blocksTo_wf {vs : List Nat} (h : vs.Pairwise (· < ·)) {k : Nat} (hk : k ≤ 256) :
    BlocksWF (blocksTo vs k) := by
  refine ⟨filterMap_range_sorted k ?_, ?_⟩
  · intro j a ha
    split at ha
    · cases ha
    · cases ha; rfl
  · intro b hb
    rw [mem_blocksTo] at hb
    refine ⟨by omega, ?_, ?_, ?_⟩
    · rw [hb.2.1]; exact hb.2.2
    · rw [hb.2.1]; exact blockVals_sorted h _
    · rw [hb.2.1]; exact blockVals_lt

theorem blkElems_blocksTo {vs : List Nat} (h : vs.Pairwise (· < ·)) (hb : ∀ v ∈ vs, v < 65536) :
    blkElems (blocksTo vs 256) = vs := by
  have hw := blocksTo_wf h (k := 256) (by omega)
  apply sorted_ext hw.sorted h
  intro v
  rw [mem_blkElems hw]
  constructor
  · rintro ⟨b, hbm, hid, hv⟩
    rw [mem_blocksTo] at hbm
    rw [hbm.2.1, mem_blockVals] at hv
    rw [show b.id * 256 + v % 256 = v by omega] at hv
    exact hv.2
  · intro hv
    have h1 := hb v hv
    have h2 : v % 256 ∈ blockVals vs (v / 256) := by
      rw [mem_blockVals]
      refine ⟨by omega, ?_⟩
      rw [show v / 256 * 256 + v % 256 = v by omega]; exact hv
    refine ⟨⟨v / 256, blockVals vs (v / 256)⟩, ?_, rfl, h2⟩
    rw [mem_blocksTo]
    exact ⟨by show v / 256 < 256; omega, rfl, List.ne_nil_of_mem h2⟩

theorem full_vals {vs : List Nat} (h : vs.Pairwise (· < ·)) (hb : ∀ v ∈ vs, v < 65536)
    (hl : vs.length = 65536) : vs = List.range 65536 := by
  apply sorted_ext h (range_sorted _)
  intro v
  rw [List.mem_range]
  refine ⟨hb v, ?_⟩
  intro hv
  -- a strictly increasing list of 65536 values below 65536 misses nothing
  refine Classical.byContradiction (fun hn => ?_)
  have hlen := (List.filter_append_perm (fun x => decide (x < v)) vs).length_eq
  rw [List.length_append, hl] at hlen
  have hsort : (vs.filter (fun x => decide (x < v)) ++ v ::
      vs.filter (fun x => !decide (x < v))).Pairwise (· < ·) := by
    rw [List.pairwise_append, List.pairwise_cons]
    have hgt : ∀ y ∈ vs.filter (fun x => !decide (x < v)), v < y := by
      intro y hy
      rw [List.mem_filter] at hy
      have h1 : y ≠ v := fun he => hn (he ▸ hy.1)
      have h2 := hy.2
      simp at h2
      omega
    refine ⟨h.filter _, ⟨hgt, h.filter _⟩, ?_⟩
    intro x hx y hy
    rw [List.mem_filter, decide_eq_true_iff] at hx
    rcases List.mem_cons.mp hy with rfl | hy
    · exact hx.2
    · have := hgt y hy; omega
  have := sorted_length_le' (n := 65536) hsort (by
    intro x hx
    rcases List.mem_append.mp hx with hx | hx
    · exact hb x (List.mem_filter.mp hx).1
    · rcases List.mem_cons.mp hx with rfl | hx
      · exact hv
      · exact hb x (List.mem_filter.mp hx).1)
  rw [List.length_append, List.length_cons] at this
  omega

theorem bodyOf_vals {vs : List Nat} (h : vs.Pairwise (· < ·)) (hb : ∀ v ∈ vs, v < 65536) :
    (bodyOf vs).vals = vs := by
  unfold bodyOf
  split
  · split
    · rfl
    · exact blkElems_blocksTo h hb
  · split
    · rename_i hl; exact (full_vals h hb hl).symm
    · rfl

theorem bodyOf_wf {vs : List Nat} (h : vs.Pairwise (· < ·)) (hb : ∀ v ∈ vs, v < 65536)
    (hne : vs ≠ []) : (bodyOf vs).WF := by
  unfold bodyOf
  split
  · split
    · exact ⟨hne, h, hb⟩
    · refine ⟨?_, blocksTo_wf h (by omega)⟩
      intro hc
      have := blkElems_blocksTo h hb
      rw [hc] at this
      exact hne this.symm
  · split
    · trivial
    · exact ⟨hne, h, hb⟩

theorem chunksTo_wf {xs : List Nat} (h : xs.Pairwise (· < ·)) {n : Nat} (hn : n ≤ 65535) :
    ChunksWF (chunksTo xs n) := by
  refine ⟨filterMap_range_sorted n ?_, ?_⟩
  · intro j a ha
    split at ha
    · cases ha
    · cases ha; rfl
  · intro c hc
    rw [mem_chunksTo] at hc
    refine ⟨by omega, ?_⟩
    rw [hc.2.1]
    exact bodyOf_wf (chunkVals_sorted h _) chunkVals_lt hc.2.2

theorem chunksTo_small {xs : List Nat} (h : xs.Pairwise (· < ·)) (n : Nat) :
    ∀ c ∈ chunksTo xs n, c.Small := by
  intro c hc bs hbs
  rw [mem_chunksTo] at hc
  rw [hc.2.1] at hbs
  unfold bodyOf at hbs
  split at hbs
  · rename_i hl
    split at hbs
    · cases hbs
    · rename_i ho
      cases hbs
      rw [blkElems_blocksTo (chunkVals_sorted h _) chunkVals_lt]
      exact ⟨hl, by omega⟩
  · split at hbs <;> cases hbs

theorem seqElems_chunksTo {xs : List Nat} (h : xs.Pairwise (· < ·)) {n : Nat} (hn : n ≤ 65535) :
    seqElems (chunksTo xs n) = xs.filter (fun x => decide (x < 65536 * n)) := by
  have hw := chunksTo_wf h hn
  apply sorted_ext hw.sorted (h.filter _)
  intro v
  rw [mem_seqElems hw, List.mem_filter, decide_eq_true_iff]
  constructor
  · rintro ⟨c, hc, hid, hv⟩
    rw [mem_chunksTo] at hc
    rw [hc.2.1, bodyOf_vals (chunkVals_sorted h _) chunkVals_lt, mem_chunkVals] at hv
    rw [show c.id * 65536 + v % 65536 = v by omega] at hv
    exact ⟨hv.2, by omega⟩
  · rintro ⟨hv, hb⟩
    have h2 : v % 65536 ∈ chunkVals xs (v / 65536) := by
      rw [mem_chunkVals]
      refine ⟨by omega, ?_⟩
      rw [show v / 65536 * 65536 + v % 65536 = v by omega]; exact hv
    refine ⟨⟨v / 65536, bodyOf (chunkVals xs (v / 65536))⟩, ?_, rfl, ?_⟩
    · rw [mem_chunksTo]
      exact ⟨by show v / 65536 < n; omega, rfl, List.ne_nil_of_mem h2⟩
    · show v % 65536 ∈ (bodyOf (chunkVals xs (v / 65536))).vals
      rw [bodyOf_vals (chunkVals_sorted h _) chunkVals_lt]; exact h2

/-! ## `chunk_cardinality` -/

theorem chunk_cardinality_loop_spec {dbg : Bool} {left : Nat} {A B : List Nat} {prev c : Nat}
    (hl : left + 65536 ≤ 4294967295) (hA : A.Pairwise (· < ·)) (hb : ∀ a ∈ A, a < 65536)
    (hp : ∀ a ∈ A, left + a ≠ prev) (hB : ∀ x ∈ B, left + 65536 ≤ x) :
    chunk_cardinality_loop dbg ⟨left, left + 65536⟩ (A.map (left + ·) ++ B) prev c
      = .ok (c + A.length) := by
  induction A generalizing prev c with
  | nil =>
    cases B with
    | nil => rfl
    | cons x B =>
      have := hB x (by simp)
      simp only [List.map_nil, List.nil_append, chunk_cardinality_loop]
      rw [if_neg (by omega)]; rfl
  | cons a A ih =>
    have h1 := hb a (by simp)
    have h2 := hp a (by simp)
    rw [List.pairwise_cons] at hA
    rw [List.map_cons, List.cons_append]
    unfold chunk_cardinality_loop
    rw [if_pos (by show left + a < left + 65536; omega), cassert_of (by simp)]
    simp only [ok_bind]
    rw [sub32_eq (by omega) (by omega), cassert_of (by simp only [chunk_size, decide_eq_true_eq]; omega)]
    simp only [ok_bind]
    rw [if_neg h2, ih hA.2 (fun x hx => hb x (by simp [hx])) ?_]
    · rw [List.length_cons]; congr 1; omega
    · intro x hx
      have := hA.1 x hx
      omega

theorem chunk_cardinality_spec {dbg : Bool} {left : Nat} {A B : List Nat}
    (hl : left + 65536 ≤ 4294967295) (hA : A.Pairwise (· < ·)) (hb : ∀ a ∈ A, a < 65536)
    (hne : A ≠ []) (hB : ∀ x ∈ B, left + 65536 ≤ x) :
    chunk_cardinality dbg (A.map (left + ·) ++ B) ⟨left, left + 65536⟩ = .ok A.length := by
  unfold chunk_cardinality
  rw [chunk_cardinality_loop_spec hl hA hb (fun a ha => by have := hb a ha; omega) hB]
  have h1 := List.length_pos_iff.mpr hne
  have h2 := sorted_length_le' hA hb
  simp only [ok_bind, Nat.zero_add]
  rw [cassert_of (by simp only [chunk_size, Bool.and_eq_true, decide_eq_true_eq]; omega)]
  rfl

/-- A repeated value in the chunk makes `chunk_cardinality` throw. -/
theorem chunk_cardinality_loop_dup {dbg : Bool} {left : Nat} {A B : List Nat} {prev c : Nat}
    (hl : left + 65536 ≤ 4294967295) (hA : A.Pairwise (· ≤ ·)) (hb : ∀ a ∈ A, a < 65536)
    (hd : ¬ (A.Pairwise (· < ·) ∧ ∀ a ∈ A, left + a ≠ prev)) (hp : ∀ a ∈ A, prev ≤ left + a ∨ prev = 4294967295) :
    chunk_cardinality_loop dbg ⟨left, left + 65536⟩ (A.map (left + ·) ++ B) prev c = .error .exc := by
  induction A generalizing prev c with
  | nil => exact absurd ⟨by simp, by simp⟩ hd
  | cons a A ih =>
    have h1 := hb a (by simp)
    rw [List.pairwise_cons] at hA
    rw [List.map_cons, List.cons_append]
    unfold chunk_cardinality_loop
    rw [if_pos (by show left + a < left + 65536; omega), cassert_of (by simp)]
    simp only [ok_bind]
    rw [sub32_eq (by omega) (by omega), cassert_of (by simp only [chunk_size, decide_eq_true_eq]; omega)]
    simp only [ok_bind]
    by_cases h2 : left + a = prev
    · rw [if_pos h2]
    · rw [if_neg h2]
      apply ih hA.2 (fun x hx => hb x (by simp [hx]))
      · rintro ⟨h3, h4⟩
        apply hd
        have h5 : ∀ b ∈ A, a < b := by
          intro b hbm
          have := hA.1 b hbm
          have := h4 b hbm
          omega
        refine ⟨List.pairwise_cons.mpr ⟨h5, h3⟩, ?_⟩
        intro b hbm
        rcases List.mem_cons.mp hbm with rfl | hbm
        · exact h2
        · have h6 := h5 b hbm
          have h7 := hp a (by simp)
          have h8 := hb b (by simp [hbm])
          omega
      · intro b hbm
        have := hA.1 b hbm
        omega

/-! ## `write_bits` -/

theorem set_bit_spec {dbg : Bool} {bm : List Nat} {P : Nat → Bool} {x : Nat} (h : BufIs bm P)
    (hx : x < bm.length * 64) :
    ∃ bm', set_bit dbg x bm = .ok bm' ∧ bm'.length = bm.length ∧
      BufIs bm' (fun y => P y || decide (y = x)) := by
  unfold set_bit
  rw [cassert_of (by simpa using hx)]
  simp only [ok_bind]
  have hi : x / 64 < bm.length := by omega
  have hw := h _ _ (List.getElem?_eq_getElem hi)
  rw [rdv_of (List.getElem?_eq_getElem hi)]
  simp only [ok_bind]
  refine ⟨bm.set (x / 64) (bm[x / 64] ||| 2 ^ (x % 64)), ?_, by simp, ?_⟩
  · rw [wr_of hi]
  · intro i w hiw
    rw [List.getElem?_set] at hiw
    by_cases he : x / 64 = i
    · rw [if_pos he, if_pos hi] at hiw
      cases hiw
      subst he
      refine ⟨?_, ?_⟩
      · exact Nat.or_lt_two_pow (n := 64) hw.1 (Nat.pow_lt_pow_right (by omega) (by omega))
      · intro j hj
        rw [Nat.testBit_or, hw.2 j hj, Nat.testBit_two_pow]
        congr 1
        rw [decide_eq_decide]; omega
    · rw [if_neg he] at hiw
      have := h i w hiw
      refine ⟨this.1, ?_⟩
      intro j hj
      rw [this.2 j hj]
      have : ¬ 64 * i + j = x := by omega
      simp [this]

theorem write_bits_loop_spec {dbg : Bool} {base : Nat} {A B : List Nat} {bm : List Nat}
    {P : Nat → Bool} (h : BufIs bm P) (hA : ∀ a ∈ A, a < bm.length * 64 ∧ base + a < 4294967296) :
    ∃ bm', write_bits_loop dbg base A.length (A.map (base + ·) ++ B) bm = .ok bm' ∧
      bm'.length = bm.length ∧ BufIs bm' (fun y => P y || decide (y ∈ A)) := by
  induction A generalizing bm P with
  | nil => exact ⟨bm, rfl, rfl, h.congr (by simp)⟩
  | cons a A ih =>
    obtain ⟨h1, h2⟩ := hA a (by simp)
    obtain ⟨bm1, e1, l1, b1⟩ := set_bit_spec (dbg := dbg) h h1
    obtain ⟨bm2, e2, l2, b2⟩ := ih b1 (fun x hx => by rw [l1]; exact hA x (by simp [hx]))
    refine ⟨bm2, ?_, by rw [l2, l1], b2.congr ?_⟩
    · simp only [List.map_cons, List.cons_append, List.length_cons, write_bits_loop]
      rw [sub32_eq (by omega) (by omega), Nat.add_sub_cancel_left, e1]
      exact e2
    · intro x _
      simp only [List.mem_cons, Bool.decide_or, Bool.or_assoc]

theorem write_bits_spec {dbg : Bool} {base n : Nat} {A B : List Nat} {out : List UInt8}
    (hA : ∀ a ∈ A, a < n * 64 ∧ base + a < 4294967296) :
    write_bits dbg (A.map (base + ·) ++ B) A.length (64 * n) base out
      = .ok (out ++ (bitWords n (fun x => decide (x ∈ A))).flatMap le64) := by
  unfold write_bits
  rw [cassert_of (by simp)]
  simp only [ok_bind]
  rw [Nat.mul_div_cancel_left n (by omega : 0 < 64)]
  obtain ⟨bm, e, l, b⟩ := write_bits_loop_spec (dbg := dbg) (B := B) (base := base) (A := A)
    (bm := List.replicate n 0) (P := fun _ => false)
    (bufIs_replicate (by omega) (by simp)) (fun a ha => by rw [List.length_replicate]; exact hA a ha)
  rw [e]
  rw [List.length_replicate] at l
  rw [eq_bitWords (b.congr (Q := fun x => decide (x ∈ A)) (by simp)) l]
  rfl

/-! ## Blocks of a sparse chunk -/

theorem encode_block_spec {dbg : Bool} {block : List Nat} {id : Nat} {header data : List UInt8}
    (hb : ∀ v ∈ block, v < 256) :
    encode_block dbg block id header data = .ok (id + 1,
      header ++ (if block = [] then [] else [(⟨id, block⟩ : Blk)]).flatMap blkHdr,
      data ++ (if block = [] then [] else [(⟨id, block⟩ : Blk)]).flatMap blkData) := by
  unfold encode_block
  by_cases hne : block = []
  · subst hne; simp
  · have := List.length_pos_iff.mpr hne
    rw [if_pos (by omega), if_neg hne]
    simp only [List.flatMap_cons, List.flatMap_nil, List.append_nil, blkHdr, blkData]
    by_cases hc : block.length < 31
    · rw [if_neg (by simp only [block_sparseness_threshold]; omega), if_pos hc]
      simp [le8]
    · rw [if_pos (by simp only [block_sparseness_threshold]; omega), if_neg hc]
      have := write_bits_spec (dbg := dbg) (base := 0) (n := 4) (A := block) (B := []) (out := data)
        (fun a ha => by have := hb a ha; omega)
      rw [List.append_nil, List.map_congr_left (g := fun x => x) (by simp), List.map_id''] at this
      rotate_left
      · simp
      rw [show block_size = 64 * 4 from rfl, this]
      simp [le8]

theorem blockVals_append_none {done A : List Nat} {k : Nat} (h : ∀ x ∈ A, x / 256 ≠ k) :
    blockVals (done ++ A) k = blockVals done k := by
  unfold blockVals
  rw [List.filter_append]
  have : A.filter (fun x => x / 256 == k) = [] := by
    rw [List.filter_eq_nil_iff]
    intro x hx; rw [beq_iff_eq]; exact h x hx
  rw [this, List.append_nil]

theorem blockVals_none {A : List Nat} {k : Nat} (h : ∀ x ∈ A, x / 256 ≠ k) :
    blockVals A k = [] := by
  have := blockVals_append_none (done := []) h
  simpa [blockVals] using this

theorem encode_sparse_chunk_loop_spec {dbg : Bool} {left : Nat} {B vs : List Nat}
    (hl : left + 65536 ≤ 4294967295) (hs : vs.Pairwise (· < ·)) (hb : ∀ v ∈ vs, v < 65536)
    (hB : ∀ x ∈ B, left + 65536 ≤ x) (f : Nat) {A done : List Nat} {k : Nat}
    (hv : done ++ A = vs) (hd : ∀ x ∈ done, x / 256 ≤ k) (hA : ∀ x ∈ A, k ≤ x / 256) (hk : k < 256)
    (hf : A.length + (255 - k) < f) :
    ∃ k', k' < 256 ∧ (∀ x ∈ vs, x / 256 ≤ k') ∧
      encode_sparse_chunk_loop dbg ⟨left, left + 65536⟩ f (A.map (left + ·) ++ B) (left + 256 * k) k
        (blockVals done k) ((blocksTo vs k).flatMap blkHdr) ((blocksTo vs k).flatMap blkData)
      = .ok (k', blockVals vs k', (blocksTo vs k').flatMap blkHdr, (blocksTo vs k').flatMap blkData)
    := by
  induction f generalizing A done k with
  | zero => omega
  | succ f ih =>
    cases A with
    | nil =>
      rw [List.append_nil] at hv
      subst hv
      refine ⟨k, hk, hd, ?_⟩
      cases B with
      | nil => rfl
      | cons x B =>
        have := hB x (by simp)
        simp only [List.map_nil, List.nil_append, encode_sparse_chunk_loop]
        rw [if_neg (by omega)]
    | cons a A =>
      have ha : a < 65536 := hb a (by rw [← hv]; simp)
      have hka := hA a (by simp)
      have hsub : vs.Pairwise (· < ·) := hs
      rw [← hv] at hsub
      have hsub2 := (List.pairwise_append.mp hsub).2.1
      rw [List.pairwise_cons] at hsub2
      simp only [List.map_cons, List.cons_append, encode_sparse_chunk_loop]
      rw [if_pos (by omega), sub32_eq (by omega) (by omega),
        show left + a - (left + 256 * k) = a - 256 * k by omega]
      by_cases hge : a - 256 * k ≥ 256
      · rw [if_pos hge, encode_block_spec blockVals_lt]
        simp only [ok_bind]
        have hnone : ∀ x ∈ a :: A, x / 256 ≠ k := by
          intro x hx
          rcases List.mem_cons.mp hx with rfl | hx
          · omega
          · have := hsub2.1 x hx; omega
        have e1 : blockVals done k = blockVals vs k := by
          rw [← hv, blockVals_append_none hnone]
        rw [e1, ← List.flatMap_append, ← List.flatMap_append, ← blocksTo_succ, u32_lt (by simp only [block_size]; omega),
          show left + 256 * k + block_size = left + 256 * (k + 1) by simp only [block_size]; omega]
        have := ih (A := a :: A) (done := done) (k := k + 1) hv (fun x hx => by have := hd x hx; omega)
          (fun x hx => by have := hA x hx; have := hnone x hx; omega) (by omega)
          (by omega)
        rw [blockVals_none (A := done) (fun x hx => by have := hd x hx; omega)] at this
        exact this
      · rw [if_neg hge, cassert_of (by simp only [block_size, decide_eq_true_eq]; omega)]
        simp only [ok_bind]
        have e1 : blockVals done k ++ [a - 256 * k] = blockVals (done ++ [a]) k := by
          unfold blockVals
          rw [List.filter_append, List.map_append]
          congr 1
          have : a / 256 = k := by omega
          simp [this]; omega
        rw [e1]
        have hle : (blockVals (done ++ [a]) k).length ≤ 256 := by
          apply sorted_length_le' _ blockVals_lt
          apply blockVals_sorted
          have : (done ++ [a]) ++ A = vs := by simpa using hv
          rw [← this] at hs
          exact (List.pairwise_append.mp hs).1
        rw [cassert_of (by simp only [block_size, decide_eq_true_eq]; omega)]
        simp only [ok_bind]
        refine ih (A := A) (done := done ++ [a]) (by simpa using hv) ?_
          (fun x hx => hA x (by simp [hx])) hk (by rw [List.length_cons] at hf; omega)
        intro x hx
        rcases List.mem_append.mp hx with hx | hx
        · exact hd x hx
        · simp at hx; subst hx; omega

theorem blocksTo_last {vs : List Nat} {k n : Nat} (h : ∀ x ∈ vs, x / 256 < k) (hn : k ≤ n) :
    blocksTo vs n = blocksTo vs k := by
  induction n with
  | zero => rw [show k = 0 by omega]
  | succ n ih =>
    by_cases hc : k = n + 1
    · rw [hc]
    · rw [blocksTo_succ, ih (by omega), blockVals_none (fun x hx => by have := h x hx; omega)]
      simp

theorem sparse_fuel_ge {A B : List Nat} (h : A ≠ []) (g : Nat → Nat) :
    A.length + 255 < sparse_loop_fuel (A.map g ++ B) := by
  unfold sparse_loop_fuel
  have := List.length_pos_iff.mpr h
  rw [List.length_append, List.length_map]
  omega

theorem encode_sparse_chunk_spec {dbg : Bool} {left : Nat} {B vs : List Nat} {out : List UInt8}
    (hl : left + 65536 ≤ 4294967295) (hs : vs.Pairwise (· < ·)) (hb : ∀ v ∈ vs, v < 65536)
    (hne : vs ≠ []) (hB : ∀ x ∈ B, left + 65536 ≤ x) :
    encode_sparse_chunk dbg (vs.map (left + ·) ++ B) ⟨left, left + 65536⟩ [] out
      = .ok ([], out ++ bodyBytes (.sparse (blocksTo vs 256))) := by
  unfold encode_sparse_chunk
  obtain ⟨k, hk, hlast, e⟩ := encode_sparse_chunk_loop_spec (dbg := dbg) hl hs hb hB
    (sparse_loop_fuel (vs.map (left + ·) ++ B)) (A := vs) (done := []) (k := 0) rfl (by simp)
    (by simp) (by omega) (sparse_fuel_ge hne _)
  rw [Nat.mul_zero, Nat.add_zero] at e
  replace e : encode_sparse_chunk_loop dbg ⟨left, left + 65536⟩
    (sparse_loop_fuel (vs.map (left + ·) ++ B)) (vs.map (left + ·) ++ B) left 0 [] [] [] = _ := e
  simp only [e, ok_bind]
  rw [encode_block_spec blockVals_lt]
  simp only [ok_bind, pure_ok]
  rw [← List.flatMap_append, ← List.flatMap_append, ← blocksTo_succ,
    ← blocksTo_last (n := 256) (fun x hx => by have := hlast x hx; omega) (by omega)]
  simp only [bodyBytes, List.append_assoc]

end Sliced
