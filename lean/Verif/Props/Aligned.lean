import Verif.Proof.Aligned
import Verif.Props.Tail
import Verif.Props.Counters
import Verif.Props.Threads
/-!
# C62: the alignment of the words that `decode` reads

By the rules of C++ the addresses of the 16-bit and 64-bit words that the code reads through casted
pointers must be multiples of 2 and of 8.  `decodeAtA` is `s_sequence(addr).decode(out)` with loads that
check this.  Here: exactly for which lists and addresses the rules are kept.
-/
namespace Sliced

/-- The encoding of `xs` being at address `a`, all its bitmaps are at multiples of 8: those of whole
slices, and those of the blocks with at least 31 elements in the slices that are stored as blocks. -/
def BitmapsAligned (xs : List Nat) (a : Nat) : Prop :=
  ∀ i, i < 65535 →
    (i ∈ denseSlices xs → (a + sliceStart xs i) % 8 = 0) ∧
    (sparseSlice xs i = true → ∀ b, b < 256 → 31 ≤ blockCard xs (256 * i + b) →
      (a + blockStart xs i b) % 8 = 0)

/-! ## From the representation to the specification -/

theorem blocksAligned_append (A : List Blk) (b : Blk) (dp : Nat) :
    blocksAligned dp (A ++ [b]) ↔
      blocksAligned dp A ∧ (31 ≤ b.vals.length → (dp + blkBytes A) % 8 = 0) := by
  induction A generalizing dp with
  | nil => simp [blocksAligned, blkBytes]
  | cons a A ih =>
    have hbb : blkBytes (a :: A) = a.size + blkBytes A := by simp [blkBytes]
    rw [List.cons_append]
    simp only [blocksAligned]
    rw [ih, hbb, and_assoc, Nat.add_assoc]

theorem blocksAligned_iff (vs : List Nat) (k p : Nat) :
    blocksAligned p (blocksTo vs k) ↔ ∀ b, b < k → 31 ≤ (blockVals vs b).length →
      (p + ((List.range b).map (fun j => blockData (blockVals vs j).length)).sum) % 8 = 0 := by
  induction k with
  | zero => simp [blocksTo, blocksAligned]
  | succ k ih =>
    rw [blocksTo_succ]
    by_cases h : blockVals vs k = []
    · rw [if_pos h, List.append_nil, ih]
      constructor
      · intro hb b hbk h1
        refine hb b ?_ h1
        rcases Nat.lt_or_ge b k with h' | h'
        · exact h'
        · obtain rfl : b = k := by omega
          rw [h] at h1; simp at h1
      · intro hb b hbk h1
        exact hb b (by omega) h1
    · rw [if_neg h, blocksAligned_append, blkBytes_blocksTo, ih]
      constructor
      · intro hle b hbk h1
        rcases Nat.lt_or_ge b k with h' | h'
        · exact hle.1 b h' h1
        · obtain rfl : b = k := by omega
          exact hle.2 h1
      · intro hb
        exact ⟨fun b hbk h1 => hb b (by omega) h1, fun h1 => hb k (by omega) h1⟩

theorem chunksAligned_append (A : List Chk) (c : Chk) (dp : Nat) :
    chunksAligned dp (A ++ [c]) ↔ chunksAligned dp A ∧ bodyAligned (dp + offSum A) c.body := by
  induction A generalizing dp with
  | nil => simp [chunksAligned, offSum_nil]
  | cons a A ih =>
    rw [List.cons_append]
    simp only [chunksAligned]
    rw [ih, offSum_cons, and_assoc, Nat.add_assoc]

theorem chunksAligned_iff (xs : List Nat) (n p : Nat) :
    chunksAligned p (chunksTo xs n) ↔ ∀ i, i < n → 1 ≤ (chunkVals xs i).length →
      bodyAligned (p + offSum (chunksTo xs i)) (bodyOf (chunkVals xs i)) := by
  induction n with
  | zero => simp [chunksTo, chunksAligned]
  | succ k ih =>
    rw [chunksTo_succ]
    by_cases h' : chunkVals xs k = []
    · rw [if_pos h', List.append_nil, ih]
      constructor
      · intro hb b hbk h1
        refine hb b ?_ h1
        rcases Nat.lt_or_ge b k with h'' | h''
        · exact h''
        · obtain rfl : b = k := by omega
          rw [h'] at h1; simp at h1
      · intro hb b hbk h1
        exact hb b (by omega) h1
    · rw [if_neg h', chunksAligned_append, ih]
      have hpos := List.length_pos_iff.mpr h'
      constructor
      · intro hle b hbk h1
        rcases Nat.lt_or_ge b k with h'' | h''
        · exact hle.1 b h'' h1
        · obtain rfl : b = k := by omega
          exact hle.2
      · intro hb
        exact ⟨fun b hbk h1 => hb b (by omega) h1, hb k (by omega) (by omega)⟩

theorem sliceStart_eq (xs : List Nat) {i : Nat} (hi : i < 65535) :
    sliceStart xs i = dirSize (chunksOf xs).length + offSum (chunksTo xs i) := by
  unfold sliceStart dirSize
  rw [offSum_chunksTo xs (by omega), chunksOf_length]

theorem bitmapsAligned_iff (xs : List Nat) (a : Nat) :
    chunksAligned (a + dirSize (chunksOf xs).length) (chunksOf xs) ↔ BitmapsAligned xs a := by
  conv => lhs; unfold chunksOf
  rw [show chunksTo xs 65535 = chunksOf xs from rfl, ← show chunksTo xs 65535 = chunksOf xs from rfl,
    chunksAligned_iff]
  refine forall_congr' (fun i => forall_congr' (fun hi => ?_))
  have hst := sliceStart_eq xs hi
  rw [show chunksOf xs = chunksTo xs 65535 from rfl] at hst
  rw [Nat.add_assoc, ← hst]
  have hcl := chunkVals_length xs i
  by_cases hne : chunkVals xs i = []
  · have hc0 : sliceCard xs i = 0 := by rw [← hcl, hne]; rfl
    constructor
    · intro _
      constructor
      · intro hd
        exfalso
        simp only [denseSlices, slicesOf, List.mem_filter, decide_eq_true_eq] at hd
        exact hd.1.2 hc0
      · intro _ b hb h31
        exfalso
        rw [← blockVals_chunkVals xs i hb, hne] at h31
        simp [blockVals] at h31
    · intro _ h1
      rw [hne] at h1; simp at h1
  · have hpos := List.length_pos_iff.mpr hne
    have hms : i ∈ slicesOf xs := by
      simp only [slicesOf, List.mem_filter, List.mem_range, decide_eq_true_eq]
      exact ⟨hi, by omega⟩
    rcases bodyOf_cases hne with ⟨hb, hc⟩ | ⟨hb, hc⟩ | ⟨hb, hc⟩
    · rw [hb]
      simp only [bodyAligned]
      refine ⟨fun _ => ⟨fun hd => ?_, fun hsp => ?_⟩, fun _ _ => trivial⟩
      · simp only [denseSlices, List.mem_filter, Bool.and_eq_true, decide_eq_true_eq] at hd
        exact absurd hc hd.2.2
      · have := (bodyOf_sparse xs i).1 hsp
        rw [hb] at this; cases this
    · have hns : sparseSlice xs i = false := by
        cases h : sparseSlice xs i with
        | false => rfl
        | true => have := (bodyOf_sparse xs i).1 h; rw [hb] at this; cases this
      have hd : i ∈ denseSlices xs := by
        simp only [denseSlices, List.mem_filter, Bool.and_eq_true, decide_eq_true_eq, hns]
        exact ⟨hms, rfl, hc.2.1⟩
      rw [hb]
      simp only [bodyAligned, hns]
      exact ⟨fun h => ⟨fun _ => h (by omega), fun h' => by cases h'⟩, fun h _ => h.1 hd⟩
    · have hsp : sparseSlice xs i = true := by
        cases h : sparseSlice xs i with
        | true => rfl
        | false => exact absurd hb ((bodyOf_sparse xs i).2 h _)
      have hnd : i ∉ denseSlices xs := by
        simp only [denseSlices, List.mem_filter, Bool.and_eq_true, hsp]
        simp
      rw [hb]
      simp only [bodyAligned]
      have hbl := sliceBlocks_eq xs i
      rw [hbl, blocksAligned_iff]
      have hbs : ∀ b, b < 256 → a + blockStart xs i b = a + sliceStart xs i + 2 * sliceBlocks xs i
          + ((List.range b).map (fun j => blockData (blockVals (chunkVals xs i) j).length)).sum := by
        intro b hb
        rw [blockStart_eq hi (by omega), hst, show chunksOf xs = chunksTo xs 65535 from rfl]
        omega
      constructor
      · intro h
        refine ⟨fun hd => absurd hd hnd, fun _ b hb h31 => ?_⟩
        rw [hbs b hb]
        exact h (by omega) b hb (by rw [blockVals_chunkVals xs i hb]; exact h31)
      · intro h _ b hb h31
        rw [← hbs b hb]
        exact h.2 hsp b hb (by rw [← blockVals_chunkVals xs i hb]; exact h31)

/-! ## The theorems -/

variable {dbg dbg' : Bool} {xs : List Nat} {m : Mem} {a pad : Nat} {bytes : List UInt8} {s : SSeq}

theorem StoredAt.header_eq (hs : StoredAt dbg xs pad m a bytes s) :
    s.header = a + 2 + 8 * (s.chunks / 32) := by
  obtain ⟨-, -, -, e⟩ := hs
  unfold SSeq.ofAddr at e
  obtain ⟨c, -, e⟩ := bind_ok e
  cases Except.ok.inj e
  simp only [associativity]
  omega

/-- C62: the encoding of any list at any address, with 31 readable bytes behind it and room in the output
buffer.  With checked alignment `decode` writes the list if the address is even and the bitmaps are
aligned, and is undefined in all other cases. -/
theorem C62_decode (hv : Valid xs) (hs : StoredAt dbg xs 31 m a bytes s) {out : List Nat}
    (hr : HasRoom xs out.length) :
    (a % 2 = 0 ∧ BitmapsAligned xs a → ∃ out', decodeAtA dbg' m a out = .ok (xs.length, out') ∧
      Wrote out 0 xs 23 out') ∧
    (¬ (a % 2 = 0 ∧ BitmapsAligned xs a) → decodeAtA dbg' m a out = .error .ub) := by
  obtain ⟨o, e, w⟩ := (C43_decode (dbg' := dbg') hv hs.stored out).1 hr
  obtain ⟨-, hd⟩ := hs.places hv
  have hh := hs.header_eq
  have he : a % 2 = 0 → SSeq.ofAddrA m a = .ok s := by
    intro h
    have := hs.2.2.2
    unfold SSeq.ofAddr at this
    unfold SSeq.ofAddrA
    rw [rd16a_even h]; exact this
  have h0 : Stored dbg xs 0 m s := by
    obtain ⟨⟨st, h1⟩, h2, h3, h4⟩ := hs
    exact ⟨a, st, bytes, h1, h2, fun i hi => absurd hi (Nat.not_lt_zero i), h4⟩
  unfold decodeAtA
  by_cases h2 : a % 2 = 0
  · obtain ⟨k1, k2⟩ := SSeq.decode_aligned (dbg := dbg') (by omega) (h0.repr hv) e
    rw [hd, bitmapsAligned_iff] at k1 k2
    rw [he h2]
    simp only [ok_bind]
    exact ⟨fun h => ⟨o, k1 h.2, w⟩, fun h => k2 (fun h' => h ⟨h2, h'⟩)⟩
  · refine ⟨fun h => absurd h.1 h2, fun _ => ?_⟩
    unfold SSeq.ofAddrA
    rw [rd16a_odd h2]
    rfl

/-- C62: the same with the necessary and sufficient condition in one line. -/
theorem C62_decode_iff (hv : Valid xs) (hs : StoredAt dbg xs 31 m a bytes s) {out : List Nat}
    (hr : HasRoom xs out.length) :
    decodeAtA dbg' m a out ≠ .error .ub ↔ a % 2 = 0 ∧ BitmapsAligned xs a := by
  have h := C62_decode (dbg' := dbg') hv hs hr
  constructor
  · intro hok
    exact Classical.byContradiction (fun hn => hok (h.2 hn))
  · intro hr hub
    obtain ⟨o, e, -⟩ := h.1 hr
    rw [e] at hub
    cases hub

/-- C62: a list without bitmaps (no slice stored as one, and no block of 31 elements or more in the
others) keeps the rules at every even address. -/
theorem C62_no_bitmaps (h1 : denseSlices xs = [])
    (h2 : ∀ i b, i < 65535 → b < 256 → sparseSlice xs i = true → blockCard xs (256 * i + b) < 31) :
    BitmapsAligned xs a := by
  intro i hi
  constructor
  · intro hd; rw [h1] at hd; cases hd
  · intro hsp b hb h31
    have := h2 i b hi hb hsp
    omega

/-- C62: a list whose first slice is stored as a bitmap keeps them only at addresses that are 6 modulo
8. -/
theorem C62_first_bitmap {i : Nat} (hd : i ∈ denseSlices xs) (hf : ∀ j ∈ slicesOf xs, i ≤ j)
    (h : BitmapsAligned xs a) : a % 8 = 6 := by
  have hm : i ∈ slicesOf xs := (List.mem_filter.mp hd).1
  have hi : i < 65535 := by
    simp only [slicesOf, List.mem_filter, List.mem_range] at hm; exact hm.1
  have := (h i hi).1 hd
  have h0 : (slicesOf xs).filter (fun j => decide (j < i)) = [] := by
    rw [List.filter_eq_nil_iff]
    intro j hj
    have := hf j hj
    simp; omega
  unfold sliceStart at this
  rw [h0] at this
  simp only [List.map_nil, List.sum_nil] at this
  omega

theorem blockStart_succ (xs : List Nat) (i b : Nat) :
    blockStart xs i (b + 1) = blockStart xs i b + blockData (blockCard xs (256 * i + b)) := by
  unfold blockStart
  rw [List.range_succ, List.map_append, List.sum_append]
  simp only [List.map_cons, List.map_nil, List.sum_cons, List.sum_nil, Nat.add_zero, Nat.add_assoc]

/-- C62: a list in which a block of fewer than 31 elements is between two blocks that are bitmaps
suits no address, unless the number of its elements is a multiple of 8. -/
theorem C62_between {i b : Nat} (hi : i < 65535) (hb : b + 2 < 256) (hsp : sparseSlice xs i = true)
    (h0 : 31 ≤ blockCard xs (256 * i + b)) (h1 : blockCard xs (256 * i + (b + 1)) < 31)
    (h8 : blockCard xs (256 * i + (b + 1)) % 8 ≠ 0)
    (h2 : 31 ≤ blockCard xs (256 * i + (b + 2))) (a : Nat) : ¬ BitmapsAligned xs a := by
  intro h
  have g := (h i hi).2 hsp
  have e0 := g b (by omega) h0
  have e2 := g (b + 2) (by omega) h2
  have s1 := blockStart_succ xs i b
  have s2 := blockStart_succ xs i (b + 1)
  rw [show b + 1 + 1 = b + 2 from rfl] at s2
  unfold blockData at s1 s2
  rw [if_neg (by omega)] at s1
  rw [if_pos h1] at s2
  omega

/-- such a list: blocks of 31 elements, 1 element and 31 elements -/
def neverAligned : List Nat := List.range 31 ++ [256] ++ (List.range 31).map (512 + ·)

theorem neverAligned_valid : Valid neverAligned :=
  valid_of_lt (by decide) (by decide +kernel) (by decide +kernel)

/-- C62: there is a list that suits no address. -/
theorem C62_nowhere (a : Nat) : ¬ BitmapsAligned neverAligned a :=
  C62_between (i := 0) (b := 0) (by decide) (by decide) (by decide +kernel) (by decide +kernel)
    (by decide +kernel) (by decide +kernel) (by decide +kernel) a

/-- C62: so decoding that list is undefined at every address. -/
theorem C62_nowhere_decode (hs : StoredAt dbg neverAligned 31 m a bytes s) {out : List Nat}
    (hr : HasRoom neverAligned out.length) : decodeAtA dbg' m a out = .error .ub :=
  (C62_decode neverAligned_valid hs hr).2 (fun h => C62_nowhere a h.2)

/-- C62: a list of at least 31 elements inside one block of 256 values keeps the rules exactly at the
addresses that are 4 modulo 8. -/
theorem C62_one_block {j : Nat} (hv : Valid xs) (h : ∀ x ∈ xs, x / 256 = j) (hn : 31 ≤ xs.length) :
    BitmapsAligned xs a ↔ a % 8 = 4 := by
  have hbs := blockStart_block hv h
  have hbc := blockCard_block h
  have hj : j < 65535 * 256 := by
    obtain ⟨x, t, rfl⟩ : ∃ x t, xs = x :: t := List.exists_cons_of_ne_nil hv.1
    have hx := h x (by simp)
    have hb := hv.2.2 x (by simp)
    omega
  have hc0 : blockCard xs (256 * (j / 256) + j % 256) = xs.length := by
    rw [hbc, if_pos (by omega)]
  have hle : xs.length ≤ 256 := by
    rw [← hc0]
    exact blockCards_le hv (j / 256) _ (List.mem_map.mpr
      ⟨j % 256, List.mem_range.mpr (by omega), rfl⟩)
  have hsc : sparseCost xs (j / 256) = 34 := by
    unfold sparseCost
    rw [sum_range_single (k := j % 256) (by omega)]
    · rw [hc0]
      unfold blockCost
      rw [if_neg (by omega), if_neg (by omega)]
    · intro b hb hbj
      simp only [hbc]
      rw [if_neg (by omega)]
      rfl
  have hsp : sparseSlice xs (j / 256) = true := by
    unfold sparseSlice
    rw [hsc, sliceCard_block h, if_pos rfl, decide_eq_true_eq]
    omega
  constructor
  · intro hA
    have := (hA (j / 256) (by omega)).2 hsp (j % 256) (by omega) (by rw [hc0]; exact hn)
    rw [hbs] at this
    omega
  · intro ha i hi
    constructor
    · intro hd
      exfalso
      simp only [denseSlices, List.mem_filter, slicesOf_block hv h, List.mem_singleton] at hd
      obtain ⟨rfl, hd⟩ := hd
      rw [hsp] at hd
      simp at hd
    · intro _ b hb h31
      rw [hbc] at h31
      split at h31
      · obtain rfl : i = j / 256 := by omega
        obtain rfl : b = j % 256 := by omega
        rw [hbs]
        omega
      · omega

/-! ## In an index -/

variable {params : Params} {univ : Nat} {lists : List (List Nat)} {offs : List Nat}
  {seqs : List UInt8} {st : Stats}

/-- C62: build a collection, save it, load the file at address `a`: exactly which of its sequences can be
decoded within the rules. -/
theorem C62_index (hg : GoodCollection params univ lists)
    (hb : build_index dbg params (collection univ lists) = .ok (offs, seqs, st))
    (hsz : (save_index offs seqs).length < 18446744073709551616)
    (hl : Loaded m a (save_index offs seqs))
    (hr : Readable m (a + (save_index offs seqs).length) 31) {i : Nat}
    (hi : (keptLists params lists)[i]? = some xs) {out : List Nat} (hroom : HasRoom xs out.length) :
    decodeAtA dbg' m (a + startAt (keptLists params lists) i) out ≠ .error .ub ↔
      (a + startAt (keptLists params lists) i) % 2 = 0 ∧
        BitmapsAligned xs (a + startAt (keptLists params lists) i) := by
  obtain ⟨idx, -, -, -, h⟩ := C18_round_trip hg hb hsz hl hr
  obtain ⟨s, bytes, -, -, hs⟩ := h i xs hi dbg
  exact C62_decode_iff (keptLists_valid hg xs (List.mem_of_getElem? hi)) hs hroom

/-- C62: in an index at an address that is a multiple of 8 (a memory mapped file is at the start of a
page) the first sequence cannot be decoded within the rules if its first slice is a bitmap. -/
theorem C62_index_first (hg : GoodCollection params univ lists)
    (hb : build_index dbg params (collection univ lists) = .ok (offs, seqs, st))
    (hsz : (save_index offs seqs).length < 18446744073709551616)
    (hl : Loaded m a (save_index offs seqs))
    (hr : Readable m (a + (save_index offs seqs).length) 31) (ha : a % 8 = 0)
    (hi : (keptLists params lists)[0]? = some xs) {out : List Nat} (hroom : HasRoom xs out.length)
    {j : Nat} (hd : j ∈ denseSlices xs) (hf : ∀ k ∈ slicesOf xs, j ≤ k) :
    decodeAtA dbg' m (a + startAt (keptLists params lists) 0) out = .error .ub := by
  refine Classical.byContradiction (fun hne => ?_)
  have h := ((C62_index (dbg' := dbg') hg hb hsz hl hr hi hroom).mp hne).2
  have := C62_first_bitmap hd hf h
  unfold startAt at this
  simp only [List.take_zero, List.map_nil, List.sum_nil] at this
  omega

/-- C62: of two neighbours in an index of which the first has an odd number of bytes, one or the other
cannot be decoded within the rules, wherever the index is. -/
theorem C62_index_neighbours (hg : GoodCollection params univ lists)
    (hb : build_index dbg params (collection univ lists) = .ok (offs, seqs, st))
    (hsz : (save_index offs seqs).length < 18446744073709551616)
    (hl : Loaded m a (save_index offs seqs))
    (hr : Readable m (a + (save_index offs seqs).length) 31) {i : Nat} {ys : List Nat}
    (hi : (keptLists params lists)[i]? = some xs) (hj : (keptLists params lists)[i + 1]? = some ys)
    (hodd : encodedSize xs % 2 = 1) {out : List Nat} (hx : HasRoom xs out.length)
    (hy : HasRoom ys out.length) :
    decodeAtA dbg' m (a + startAt (keptLists params lists) i) out = .error .ub ∨
    decodeAtA dbg' m (a + startAt (keptLists params lists) (i + 1)) out = .error .ub := by
  have h1 := C62_index (dbg' := dbg') hg hb hsz hl hr hi hx
  have h2 := C62_index (dbg' := dbg') hg hb hsz hl hr hj hy
  have hst : startAt (keptLists params lists) (i + 1)
      = startAt (keptLists params lists) i + encodedSize xs := by
    unfold startAt
    rw [List.take_add_one, hi]
    simp
    omega
  refine Classical.byContradiction (fun hne => ?_)
  have e1 := (h1.mp (fun h => hne (Or.inl h))).1
  have e2 := (h2.mp (fun h => hne (Or.inr h))).1
  omega

/-! ## The hypotheses are met -/

-- a bitmap that is aligned at address 4, and not at address 0
example : BitmapsAligned (List.range 31) 4 ∧ ¬ BitmapsAligned (List.range 31) 0 := by
  have hv : Valid (List.range 31) := valid_of_lt (by decide) (by decide) (by decide)
  rw [C62_one_block (j := 0) hv (by decide) (by decide), C62_one_block (j := 0) hv (by decide) (by decide)]
  decide

-- an index of two sequences, the first of which has 13 bytes
example : GoodCollection {} 2 (shortLists 0 2) ∧
    keptLists {} (shortLists 0 2) = [[0], [0]] ∧ encodedSize [0] % 2 = 1 := by
  refine ⟨shortLists_good 0 2, by rw [shortLists_kept]; rfl, ?_⟩
  rw [encodedSize_block (j := 0) zero_valid (by decide) (by decide)]
  rfl

-- the second list of the sample collection has no bitmaps; it must lie at an even address
example : ∃ offs seqs st m p, build_index true { size := 1 } (collection 80000 sampleColl)
      = .ok (offs, seqs, st) ∧ Loaded m 4096 (save_index offs seqs) ∧
    p = 4096 + startAt [[3, 5, 300, 70000], [3, 5, 300, 70000]] 1 ∧
    (decodeAtA false m p (List.replicate 36 0) ≠ .error .ub ↔
      p % 2 = 0 ∧ BitmapsAligned [3, 5, 300, 70000] p) := by
  obtain ⟨offs, seqs, st, m, hb, -, hsz, hl, hr⟩ := sampleColl_ready true
  have hk : keptLists { size := 1 } sampleColl = [[3, 5, 300, 70000], [3, 5, 300, 70000]] := by decide
  have h := C62_index (dbg' := false) (i := 1) (xs := [3, 5, 300, 70000]) (out := List.replicate 36 0)
    sampleColl_good hb hsz hl hr (by decide) (hasRoom_spare (by simp))
  rw [hk] at h
  exact ⟨offs, seqs, st, m, _, hb, hl, rfl, h⟩

end Sliced
