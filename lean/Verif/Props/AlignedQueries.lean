import Verif.Proof.AlignedGeq
import Verif.Props.Aligned
import Verif.Props.GeqEnumerator
/-!
# C66: the alignment of the words that the queries read

As C62 for `decode`: exactly for which lists, addresses and arguments the queries keep the alignment rules
of C++.  A query reads 16-bit words of the headers, 32-bit words of the skip pointers, and 64-bit words of
the bitmaps; of the bitmaps only those it has to look into.
-/
namespace Sliced

/-- The encoding of `xs` being at address `a`: the bitmap with the place of `v`, if there is one (of its
slice, or of its block if the slice is stored as blocks), is at a multiple of 8. -/
def BitmapAligned (xs : List Nat) (a v : Nat) : Prop :=
  (v / 65536 ∈ denseSlices xs → (a + sliceStart xs (v / 65536)) % 8 = 0) ∧
  (sparseSlice xs (v / 65536) = true → 31 ≤ blockCard xs (v / 256) →
    (a + blockStart xs (v / 65536) (v / 256 % 256)) % 8 = 0)

/-- The search for the slice of `v` passes a group of 32 slices: there are more than 32 slices, and the
33rd is not after the one of `v`. -/
def PassesGroup (xs : List Nat) (v : Nat) : Prop := ∃ j, (slicesOf xs)[32]? = some j ∧ j ≤ v / 65536

/-! ## From the representation to the specification -/

theorem blkAlignedAt_iff (q : Nat) (vs : List Nat) (k p : Nat) :
    blkAlignedAt q p (blocksTo vs k) ↔ ∀ b, b < k → b = q → 31 ≤ (blockVals vs b).length →
      (p + ((List.range b).map (fun j => blockData (blockVals vs j).length)).sum) % 8 = 0 := by
  induction k with
  | zero => simp [blocksTo, blkAlignedAt]
  | succ k ih =>
    rw [blocksTo_succ]
    by_cases h : blockVals vs k = []
    · rw [if_pos h, List.append_nil, ih]
      constructor
      · intro hb b hbk hq h1
        refine hb b ?_ hq h1
        rcases Nat.lt_or_ge b k with h' | h'
        · exact h'
        · obtain rfl : b = k := by omega
          rw [h] at h1; simp at h1
      · intro hb b hbk hq h1
        exact hb b (by omega) hq h1
    · rw [if_neg h, blkAlignedAt_append, blkBytes_blocksTo, ih]
      constructor
      · intro hle b hbk hq h1
        rcases Nat.lt_or_ge b k with h' | h'
        · exact hle.1 b h' hq h1
        · obtain rfl : b = k := by omega
          exact hle.2.1 hq h1
      · intro hb
        exact ⟨fun b hbk hq h1 => hb b (by omega) hq h1, fun hq h1 => hb k (by omega) hq h1, trivial⟩

theorem chkAlignedAt_iff (v : Nat) (xs : List Nat) (n p : Nat) :
    chkAlignedAt v p (chunksTo xs n) ↔ ∀ i, i < n → i = v / 65536 → 1 ≤ (chunkVals xs i).length →
      bodyAlignedAt (v % 65536) (p + offSum (chunksTo xs i)) (bodyOf (chunkVals xs i)) := by
  induction n with
  | zero => simp [chunksTo, chkAlignedAt]
  | succ k ih =>
    rw [chunksTo_succ]
    by_cases h' : chunkVals xs k = []
    · rw [if_pos h', List.append_nil, ih]
      constructor
      · intro hb b hbk hq h1
        refine hb b ?_ hq h1
        rcases Nat.lt_or_ge b k with h'' | h''
        · exact h''
        · obtain rfl : b = k := by omega
          rw [h'] at h1; simp at h1
      · intro hb b hbk hq h1
        exact hb b (by omega) hq h1
    · rw [if_neg h', chkAlignedAt_append, ih]
      have hpos := List.length_pos_iff.mpr h'
      constructor
      · intro hle b hbk hq h1
        rcases Nat.lt_or_ge b k with h'' | h''
        · exact hle.1 b h'' hq h1
        · obtain rfl : b = k := by omega
          exact hle.2.1 hq
      · intro hb
        exact ⟨fun b hbk hq h1 => hb b (by omega) hq h1,
          fun hq => hb k (by omega) hq (by omega), trivial⟩

theorem sliceCard_beyond {xs : List Nat} (hv : Valid xs) {i : Nat} (hi : 65535 ≤ i) :
    sliceCard xs i = 0 := by
  unfold sliceCard
  rw [List.length_eq_zero_iff, List.filter_eq_nil_iff]
  intro x hx
  have := hv.2.2 x hx
  simp; omega

/-- no element is in the slice of `v` -/
theorem bitmapAligned_beyond {xs : List Nat} (hv : Valid xs) (a : Nat) {v : Nat}
    (hi : 65535 ≤ v / 65536) : BitmapAligned xs a v := by
  have hc0 := sliceCard_beyond hv hi
  have hb0 : blockCard xs (v / 256) = 0 := by
    unfold blockCard
    rw [List.length_eq_zero_iff, List.filter_eq_nil_iff]
    intro x hx
    have := hv.2.2 x hx
    simp; omega
  refine ⟨fun hd => ?_, fun _ h31 => by omega⟩
  simp only [denseSlices, slicesOf, List.mem_filter, decide_eq_true_eq] at hd
  exact absurd hc0 hd.1.2

theorem bitmapAligned_iff {xs : List Nat} (hv : Valid xs) (a v : Nat) :
    chkAlignedAt v (a + dirSize (chunksOf xs).length) (chunksOf xs) ↔ BitmapAligned xs a v := by
  rw [show chunksOf xs = chunksTo xs 65535 from rfl, chkAlignedAt_iff]
  by_cases hi : v / 65536 < 65535
  rotate_left
  · exact ⟨fun _ => bitmapAligned_beyond hv a (by omega), fun _ i hi' he => by omega⟩
  unfold BitmapAligned
  generalize hI : v / 65536 = i at *
  have hst := sliceStart_eq xs hi
  rw [show chunksOf xs = chunksTo xs 65535 from rfl] at hst
  have hone : (∀ j, j < 65535 → j = i → 1 ≤ (chunkVals xs j).length →
      bodyAlignedAt (v % 65536) (a + dirSize (chunksTo xs 65535).length + offSum (chunksTo xs j))
        (bodyOf (chunkVals xs j))) ↔ (1 ≤ (chunkVals xs i).length →
      bodyAlignedAt (v % 65536) (a + sliceStart xs i) (bodyOf (chunkVals xs i))) := by
    rw [hst, ← Nat.add_assoc]
    exact ⟨fun h => h i hi rfl, fun h j _ e => by subst e; exact h⟩
  rw [hone]
  have hq : v / 256 = 256 * i + v / 256 % 256 := by omega
  have hq2 : v % 65536 / 256 = v / 256 % 256 := by omega
  have hb : v / 256 % 256 < 256 := by omega
  generalize v / 256 % 256 = b at *
  rw [hq]
  have hcl := chunkVals_length xs i
  by_cases hne : chunkVals xs i = []
  · have hc0 : sliceCard xs i = 0 := by rw [← hcl, hne]; rfl
    constructor
    · intro _
      constructor
      · intro hd
        exfalso
        simp only [denseSlices, slicesOf, List.mem_filter, decide_eq_true_eq] at hd
        exact hd.1.2 hc0
      · intro _ h31
        exfalso
        rw [← blockVals_chunkVals xs i hb, hne] at h31
        simp [blockVals] at h31
    · intro _ h1
      rw [hne] at h1; simp at h1
  · have hpos := List.length_pos_iff.mpr hne
    have hms : i ∈ slicesOf xs := by
      simp only [slicesOf, List.mem_filter, List.mem_range, decide_eq_true_eq]
      exact ⟨hi, by omega⟩
    rcases bodyOf_cases hne with ⟨hbo, hc⟩ | ⟨hbo, hc⟩ | ⟨hbo, hc⟩
    · rw [hbo]
      simp only [bodyAlignedAt]
      refine ⟨fun _ => ⟨fun hd => ?_, fun hsp => ?_⟩, fun _ _ => trivial⟩
      · simp only [denseSlices, List.mem_filter, Bool.and_eq_true, decide_eq_true_eq] at hd
        exact absurd hc hd.2.2
      · have := (bodyOf_sparse xs i).1 hsp
        rw [hbo] at this; cases this
    · have hns : sparseSlice xs i = false := by
        cases h : sparseSlice xs i with
        | false => rfl
        | true => have := (bodyOf_sparse xs i).1 h; rw [hbo] at this; cases this
      have hd : i ∈ denseSlices xs := by
        simp only [denseSlices, List.mem_filter, Bool.and_eq_true, decide_eq_true_eq, hns]
        exact ⟨hms, rfl, hc.2.1⟩
      rw [hbo]
      simp only [bodyAlignedAt, hns]
      exact ⟨fun h => ⟨fun _ => h (by omega), fun h' => by cases h'⟩, fun h _ => h.1 hd⟩
    · have hsp : sparseSlice xs i = true := by
        cases h : sparseSlice xs i with
        | true => rfl
        | false => exact absurd hbo ((bodyOf_sparse xs i).2 h _)
      have hnd : i ∉ denseSlices xs := by
        simp only [denseSlices, List.mem_filter, Bool.and_eq_true, hsp]
        simp
      rw [hbo]
      simp only [bodyAlignedAt]
      have hbl := sliceBlocks_eq xs i
      rw [hbl, hq2, blkAlignedAt_iff]
      have hbs : a + blockStart xs i b = a + sliceStart xs i + 2 * sliceBlocks xs i
          + ((List.range b).map (fun j => blockData (blockVals (chunkVals xs i) j).length)).sum := by
        rw [blockStart_eq hi (by omega), hst, show chunksOf xs = chunksTo xs 65535 from rfl]
        omega
      constructor
      · intro h
        refine ⟨fun hd => absurd hd hnd, fun _ h31 => ?_⟩
        rw [hbs]
        exact h (by omega) b hb rfl (by rw [blockVals_chunkVals xs i hb]; exact h31)
      · rintro h _ b' hb' rfl h31
        rw [← hbs]
        exact h.2 hsp (by rw [← blockVals_chunkVals xs i hb']; exact h31)

theorem jumps_iff (xs : List Nat) (v : Nat) : Jumps (v / 65536) (chunksOf xs) ↔ PassesGroup xs v := by
  unfold Jumps PassesGroup
  rw [← chunksOf_map_id, List.getElem?_map]
  constructor
  · rintro ⟨c, h1, h2⟩
    exact ⟨c.id, by rw [h1]; rfl, h2⟩
  · rintro ⟨j, h1, h2⟩
    cases hc : (chunksOf xs)[32]? with
    | none => rw [hc] at h1; cases h1
    | some c => rw [hc] at h1; cases h1; exact ⟨c, rfl, h2⟩

section
variable {dbg dbg' : Bool} {xs : List Nat} {m : Mem} {a pad : Nat} {bytes : List UInt8} {s : SSeq}

theorem StoredAt.pointers_eq (hs : StoredAt dbg xs pad m a bytes s) : s.pointers = a + 2 := by
  obtain ⟨-, -, -, e⟩ := hs
  unfold SSeq.ofAddr at e
  obtain ⟨c, -, e⟩ := bind_ok e
  cases Except.ok.inj e
  rfl

theorem StoredAt.ofAddrA (hs : StoredAt dbg xs pad m a bytes s) :
    Gated (a % 2 = 0) (SSeq.ofAddrA m a) (.ok s) := by
  constructor
  · intro h
    have := hs.2.2.2
    unfold SSeq.ofAddr at this
    unfold SSeq.ofAddrA
    rw [rd16a_even h]; exact this
  · intro h
    unfold SSeq.ofAddrA
    rw [rd16a_odd h]
    rfl

theorem StoredAt.repr0 (hv : Valid xs) (hs : StoredAt dbg xs pad m a bytes s) :
    SeqAt 0 m s (chunksOf xs) := by
  obtain ⟨⟨st, h1⟩, h2, h3, h4⟩ := hs
  exact Stored.repr ⟨a, st, bytes, h1, h2, fun i hi => absurd hi (Nat.not_lt_zero i), h4⟩ hv

/-- from the sequence to its address -/
theorem gated_at {α : Type} {Q : Prop} {f : SSeq → Res α} {x : α} {r : Res α}
    (hs : StoredAt dbg xs pad m a bytes s)
    (h : s.header % 2 = 0 → Gated Q (f s) r) (hr : r = .ok x) :
    Gated (a % 2 = 0 ∧ Q) (SSeq.ofAddrA m a >>= f) (.ok x) := by
  subst hr
  have hh := hs.header_eq
  by_cases ha : a % 2 = 0
  · exact Gated.both (g := fun _ => .ok x) hs.ofAddrA (h (by omega))
  · exact ⟨fun h => absurd h.1 ha, fun _ => by rw [hs.ofAddrA.2 ha]; rfl⟩

theorem Gated.ne_ub {α : Type} {P : Prop} {x : Res α} {v : α} (h : Gated P x (.ok v)) :
    x ≠ .error .ub ↔ P := by
  constructor
  · intro hne
    exact Classical.byContradiction (fun hp => hne (h.2 hp))
  · intro hp hub
    rw [h.1 hp] at hub
    cases hub

/-! ## The theorems -/

/-- C66: `cardinality` keeps the rules at the even addresses, and only there. -/
theorem C66_cardinality (hv : Valid xs) (hs : StoredAt dbg xs pad m a bytes s) :
    (a % 2 = 0 → cardinalityAtA m a = .ok xs.length) ∧
    (¬ a % 2 = 0 → cardinalityAtA m a = .error .ub) := by
  have h := gated_at (Q := True) (f := fun s => s.cardinalityA m) (r := s.cardinality m) hs
    (fun hh => Gated.same (SSeq.cardinalityA_eq hh)) (C03_cardinality hv hs.stored).1
  exact ⟨fun ha => h.1 ⟨ha, trivial⟩, fun ha => h.2 (fun h => ha h.1)⟩

/-- C66: `uncompress` copies the bitmaps byte by byte, so the even addresses are enough for any list; with
room in a cleared output buffer it writes the list. -/
theorem C66_uncompress (hv : Valid xs) (hs : StoredAt dbg xs pad m a bytes s) {n : Nat}
    (hcap : ∀ x ∈ xs, (x / 65536 + 1) * 1024 ≤ n) :
    (a % 2 = 0 → ∃ out', uncompressAtA dbg' m a (List.replicate n 0) = .ok (xs.length, out') ∧
      out'.length = n ∧ ∀ v, bitOf out' v = decide (v ∈ xs)) ∧
    (¬ a % 2 = 0 → uncompressAtA dbg' m a (List.replicate n 0) = .error .ub) := by
  obtain ⟨out', e, hl, -, hb⟩ := C07_uncompress_zeroed (dbg' := dbg') hv hs.stored n hcap
  have h := gated_at (Q := True) (f := fun s => s.uncompressA dbg' m (List.replicate n 0)) hs
    (fun hh => Gated.same (SSeq.uncompressA_eq hh)) e
  exact ⟨fun ha => ⟨out', h.1 ⟨ha, trivial⟩, hl, hb⟩, fun ha => h.2 (fun h => ha h.1)⟩

theorem contains_gated (hv : Valid xs) (hs : StoredAt dbg xs pad m a bytes s) {v : Nat}
    (h32 : v < 4294967296) :
    Gated (a % 2 = 0 ∧ (PassesGroup xs v → a % 4 = 2) ∧ BitmapAligned xs a v)
      (containsAtA dbg' m a v) (.ok (decide (v ∈ xs))) := by
  refine (gated_at (f := fun s => s.containsA dbg' m v) hs
    (fun hh => SSeq.contains_aligned hh (hs.repr0 hv) h32) (C04_contains hv hs.stored h32)).iff ?_
  rw [(hs.places hv).2, bitmapAligned_iff hv, jumps_iff, hs.pointers_eq]
  refine and_congr_right (fun ha => and_congr_left (fun _ => ?_))
  exact ⟨fun h hp => by have := h hp; omega, fun h hp => by have := h hp; omega⟩

/-- C66: `contains(v)` answers if the address is even, the skip pointers (if the search comes to them) are
at a multiple of 4, and the bitmap with the place of `v` is aligned; it is undefined in all other cases. -/
theorem C66_contains (hv : Valid xs) (hs : StoredAt dbg xs pad m a bytes s) {v : Nat}
    (h32 : v < 4294967296) :
    (a % 2 = 0 ∧ (PassesGroup xs v → a % 4 = 2) ∧ BitmapAligned xs a v →
      containsAtA dbg' m a v = .ok (decide (v ∈ xs))) ∧
    (¬ (a % 2 = 0 ∧ (PassesGroup xs v → a % 4 = 2) ∧ BitmapAligned xs a v) →
      containsAtA dbg' m a v = .error .ub) := contains_gated hv hs h32

theorem select_gated (hv : Valid xs) (hs : StoredAt dbg xs pad m a bytes s) {r value : Nat}
    (h32 : r < 4294967296) :
    Gated (a % 2 = 0 ∧ (33 ≤ (slicesOf xs).length → a % 4 = 2) ∧
        ∀ x, xs[r]? = some x → BitmapAligned xs a x)
      (selectAtA dbg' m a r value) (.ok (xs[r]?.isSome, xs[r]?.getD value)) := by
  have hsel : s.select dbg' m r value = .ok (xs[r]?.isSome, xs[r]?.getD value) := by
    by_cases h : r < xs.length
    · rw [C05_select hv hs.stored h, List.getElem?_eq_getElem h]; rfl
    · rw [C05_select_out hv hs.stored (by omega) h32, List.getElem?_eq_none (by omega)]; rfl
  refine (gated_at (f := fun s => s.selectA dbg' m r value) hs
    (fun hh => SSeq.select_aligned hh (hs.repr0 hv) h32 value) hsel).iff ?_
  rw [(hs.places hv).2, seqElems_chunksOf hv, hs.pointers_eq]
  simp only [bitmapAligned_iff hv]
  rw [chunksOf_length]
  refine and_congr_right (fun ha => and_congr_left (fun _ => ?_))
  exact ⟨fun h hp => by have := h (by omega); omega, fun h hp => by have := h (by omega); omega⟩

/-- C66: `select(rank, value)` answers if the address is even, the skip pointers (if there are more than 32
slices) are at a multiple of 4, and the bitmap with the element of that rank, if there is one, is aligned;
it is undefined in all other cases. -/
theorem C66_select (hv : Valid xs) (hs : StoredAt dbg xs pad m a bytes s) {r value : Nat}
    (h32 : r < 4294967296) :
    (a % 2 = 0 ∧ (33 ≤ (slicesOf xs).length → a % 4 = 2) ∧
        (∀ x, xs[r]? = some x → BitmapAligned xs a x) →
      selectAtA dbg' m a r value = .ok (xs[r]?.isSome, xs[r]?.getD value)) ∧
    (¬ (a % 2 = 0 ∧ (33 ≤ (slicesOf xs).length → a % 4 = 2) ∧
        ∀ x, xs[r]? = some x → BitmapAligned xs a x) →
      selectAtA dbg' m a r value = .error .ub) := select_gated hv hs h32

theorem next_geq_gated (hv : Valid xs) (hs : StoredAt dbg xs pad m a bytes s) {v : Nat}
    (h32 : v < 4294967296) :
    Gated (a % 2 = 0 ∧ (PassesGroup xs v → a % 4 = 2) ∧ BitmapAligned xs a v ∧
        ∀ y, xs.find? (fun x => decide (v ≤ x)) = some y → BitmapAligned xs a y)
      (nextGeqAtA dbg' m a v) (.ok ((xs.find? (fun x => decide (v ≤ x))).getD 4294967295)) := by
  refine (gated_at (f := fun s => s.next_geqA dbg' m v) hs
    (fun hh => SSeq.next_geq_aligned hh (hs.repr0 hv) h32) (C06_find hv hs.stored h32)).iff ?_
  rw [(hs.places hv).2, seqElems_chunksOf hv, bitmapAligned_iff hv, jumps_iff, hs.pointers_eq]
  simp only [bitmapAligned_iff hv, geq]
  refine and_congr_right (fun ha => and_congr_left (fun _ => ?_))
  exact ⟨fun h hp => by have := h hp; omega, fun h hp => by have := h hp; omega⟩

/-- C66: `next_geq(v)` answers if the address is even, the skip pointers (if the search comes to them) are
at a multiple of 4, and both the bitmap with the place of `v` and the bitmap with the answer are aligned;
it is undefined in all other cases. -/
theorem C66_next_geq (hv : Valid xs) (hs : StoredAt dbg xs pad m a bytes s) {v : Nat}
    (h32 : v < 4294967296) :
    (a % 2 = 0 ∧ (PassesGroup xs v → a % 4 = 2) ∧ BitmapAligned xs a v ∧
        (∀ y, xs.find? (fun x => decide (v ≤ x)) = some y → BitmapAligned xs a y) →
      nextGeqAtA dbg' m a v = .ok ((xs.find? (fun x => decide (v ≤ x))).getD 4294967295)) ∧
    (¬ (a % 2 = 0 ∧ (PassesGroup xs v → a % 4 = 2) ∧ BitmapAligned xs a v ∧
        ∀ y, xs.find? (fun x => decide (v ≤ x)) = some y → BitmapAligned xs a y) →
      nextGeqAtA dbg' m a v = .error .ub) := next_geq_gated hv hs h32

/-- C66: an enumerator that is run to the end keeps the rules under the same condition as `decode`. -/
theorem C66_enumerator (hv : Valid xs) (hs : StoredAt dbg xs 31 m a bytes s) {buf : List Nat}
    (hbuf : buf.length = 65536) (pte : Nat) {fuel : Nat} (hf : xs.length < fuel) :
    (a % 2 = 0 ∧ BitmapsAligned xs a → collectAtA dbg' m buf a pte fuel = .ok xs) ∧
    (¬ (a % 2 = 0 ∧ BitmapsAligned xs a) → collectAtA dbg' m buf a pte fuel = .error .ub) := by
  obtain ⟨e, e1, e2⟩ := C09_collect (dbg' := dbg') hv hs.stored pte buf hbuf
  have hg := gated_at (Q := BitmapsAligned xs a)
    (f := fun s => do let e ← Enum.initA dbg' m buf s pte; Enum.collectA dbg' m fuel e)
    (r := .ok xs) hs (fun hh => by
      have := Enum.run_aligned hh (hs.repr0 hv) e1 (e2 fuel hf)
      rw [(hs.places hv).2, bitmapsAligned_iff] at this
      exact this) rfl
  exact hg

/-! ## Consequences -/

/-- C66: a list that `decode` may read has all its bitmaps aligned. -/
theorem C66_all_bitmaps (hv : Valid xs) (h : BitmapsAligned xs a) (v : Nat) : BitmapAligned xs a v := by
  by_cases hi : v / 65536 < 65535
  · refine ⟨(h _ hi).1, fun hsp h31 => (h _ hi).2 hsp (v / 256 % 256) (by omega) ?_⟩
    rw [show 256 * (v / 65536) + v / 256 % 256 = v / 256 by omega]
    exact h31
  · exact bitmapAligned_beyond hv a (by omega)

/-- C66: and if each element's bitmap is aligned then `decode` may read the list. -/
theorem C66_elements (h : ∀ x ∈ xs, BitmapAligned xs a x) : BitmapsAligned xs a := by
  intro i hi
  constructor
  · intro hd
    have hm : sliceCard xs i ≠ 0 := by
      have := (List.mem_filter.mp hd).1
      simp only [slicesOf, List.mem_filter, decide_eq_true_eq] at this
      exact this.2
    unfold sliceCard at hm
    obtain ⟨x, hx⟩ := List.exists_mem_of_length_pos (Nat.pos_of_ne_zero hm)
    obtain ⟨hx1, hx2⟩ := List.mem_filter.mp hx
    have hx2 : x / 65536 = i := by simpa using hx2
    have := (h x hx1).1
    rw [hx2] at this
    exact this hd
  · intro hsp b hb h31
    have h31' := h31
    unfold blockCard at h31'
    obtain ⟨x, hx⟩ := List.exists_mem_of_length_pos (Nat.lt_of_lt_of_le (by decide) h31')
    obtain ⟨hx1, hx2⟩ := List.mem_filter.mp hx
    have hx2 : x / 256 = 256 * i + b := by simpa using hx2
    have := (h x hx1).2
    rw [show x / 65536 = i by omega, hx2, show (256 * i + b) % 256 = b by omega] at this
    exact this hsp h31

/-- C66: at an address that is 2 modulo 4, a list that `decode` may read can be asked anything. -/
theorem C66_suffices (hv : Valid xs) (hs : StoredAt dbg xs pad m a bytes s) (ha : a % 4 = 2)
    (hb : BitmapsAligned xs a) {v : Nat} (h32 : v < 4294967296) (value : Nat) :
    containsAtA dbg' m a v = .ok (decide (v ∈ xs)) ∧
    selectAtA dbg' m a v value = .ok (xs[v]?.isSome, xs[v]?.getD value) ∧
    nextGeqAtA dbg' m a v = .ok ((xs.find? (fun x => decide (v ≤ x))).getD 4294967295) :=
  ⟨(C66_contains hv hs h32).1 ⟨by omega, fun _ => ha, C66_all_bitmaps hv hb v⟩,
   (C66_select hv hs h32).1 ⟨by omega, fun _ => ha, fun x _ => C66_all_bitmaps hv hb x⟩,
   (C66_next_geq hv hs h32).1 ⟨by omega, fun _ => ha, C66_all_bitmaps hv hb v,
    fun y _ => C66_all_bitmaps hv hb y⟩⟩

/-- C66: a list of more than 32 slices at an address that is not 2 modulo 4 cannot be asked for any rank
within the rules, not even for one that it does not have. -/
theorem C66_select_nowhere (hv : Valid xs) (hs : StoredAt dbg xs pad m a bytes s)
    (hn : 33 ≤ (slicesOf xs).length) (ha : ¬ a % 4 = 2) {r : Nat} (h32 : r < 4294967296) (value : Nat) :
    selectAtA dbg' m a r value = .error .ub :=
  (C66_select hv hs h32).2 (fun h => ha (h.2.1 hn))

/-- C66: `select` may look into fewer bitmaps than `decode`: all ranks of a list can be asked for within
the rules exactly if `decode` may read it and (with more than 32 slices) the address is 2 modulo 4. -/
theorem C66_select_all (hv : Valid xs) (hs : StoredAt dbg xs pad m a bytes s) :
    (∀ r, r < xs.length → ∀ value, selectAtA dbg' m a r value ≠ .error .ub) ↔
      a % 2 = 0 ∧ (33 ≤ (slicesOf xs).length → a % 4 = 2) ∧ BitmapsAligned xs a := by
  have hlen : xs.length ≤ 4294901760 := by
    have := sorted_length_le' hv.2.1 hv.2.2
    omega
  constructor
  · intro h
    have hk : ∀ r, r < xs.length → _ := fun r hr =>
      (select_gated (dbg' := dbg') (value := 0) hv hs (by omega)).ne_ub.mp (h r hr 0)
    have h0 := hk 0 (List.length_pos_iff.mpr hv.1)
    refine ⟨h0.1, h0.2.1, C66_elements (fun x hx => ?_)⟩
    obtain ⟨r, hr, rfl⟩ := List.mem_iff_getElem.mp hx
    exact (hk r hr).2.2 _ (List.getElem?_eq_getElem hr)
  · rintro ⟨h1, h2, h3⟩ r hr value
    exact (select_gated hv hs (by omega)).ne_ub.mpr ⟨h1, h2, fun x _ => C66_all_bitmaps hv h3 x⟩

/-! ## In an index -/

variable {params : Params} {univ : Nat} {lists : List (List Nat)} {offs : List Nat}
  {seqs : List UInt8} {st : Stats}

/-- C66: build a collection, save it, load the file at address `a`: exactly which queries of its sequences
keep the rules. -/
theorem C66_index (hg : GoodCollection params univ lists)
    (hb : build_index dbg params (collection univ lists) = .ok (offs, seqs, st))
    (hsz : (save_index offs seqs).length < 18446744073709551616)
    (hl : Loaded m a (save_index offs seqs))
    (hr : Readable m (a + (save_index offs seqs).length) 31) {i p : Nat}
    (hi : (keptLists params lists)[i]? = some xs)
    (hp : p = a + startAt (keptLists params lists) i) {v : Nat} (h32 : v < 4294967296) (value : Nat) :
    (containsAtA dbg' m p v ≠ .error .ub ↔
      p % 2 = 0 ∧ (PassesGroup xs v → p % 4 = 2) ∧ BitmapAligned xs p v) ∧
    (selectAtA dbg' m p v value ≠ .error .ub ↔
      p % 2 = 0 ∧ (33 ≤ (slicesOf xs).length → p % 4 = 2) ∧
        ∀ x, xs[v]? = some x → BitmapAligned xs p x) ∧
    (nextGeqAtA dbg' m p v ≠ .error .ub ↔
      p % 2 = 0 ∧ (PassesGroup xs v → p % 4 = 2) ∧ BitmapAligned xs p v ∧
        ∀ y, xs.find? (fun x => decide (v ≤ x)) = some y → BitmapAligned xs p y) := by
  obtain ⟨idx, -, -, -, h⟩ := C18_round_trip hg hb hsz hl hr
  obtain ⟨s, bytes, -, -, hs⟩ := h i xs hi dbg
  have hv := keptLists_valid hg xs (List.mem_of_getElem? hi)
  subst hp
  exact ⟨(contains_gated hv hs h32).ne_ub, (select_gated hv hs h32).ne_ub,
    (next_geq_gated hv hs h32).ne_ub⟩

/-- C66: in an index at an address that is a multiple of 4, `select` is undefined on the first sequence
for all ranks if that sequence has more than 32 slices. -/
theorem C66_index_first (hg : GoodCollection params univ lists)
    (hb : build_index dbg params (collection univ lists) = .ok (offs, seqs, st))
    (hsz : (save_index offs seqs).length < 18446744073709551616)
    (hl : Loaded m a (save_index offs seqs))
    (hr : Readable m (a + (save_index offs seqs).length) 31) (ha : a % 4 = 0)
    (hi : (keptLists params lists)[0]? = some xs) (hn : 33 ≤ (slicesOf xs).length)
    {r : Nat} (h32 : r < 4294967296) (value : Nat) :
    selectAtA dbg' m (a + startAt (keptLists params lists) 0) r value = .error .ub := by
  refine Classical.byContradiction (fun hne => ?_)
  have h := ((C66_index (dbg' := dbg') hg hb hsz hl hr hi rfl h32 value).2.1.mp hne).2.1 hn
  unfold startAt at h
  simp only [List.take_zero, List.map_nil, List.sum_nil] at h
  omega

end

/-! ## The hypotheses are met -/

-- the bitmap of the only block of `0, …, 30` is needed for 5 and not for 300
example (a : Nat) : BitmapAligned (List.range 31) a 300 ∧
    (BitmapAligned (List.range 31) a 5 ↔ a % 8 = 4) := by
  have hv : Valid (List.range 31) := valid_of_lt (by decide) (by decide) (by decide)
  have h1 := C62_one_block (a := a) (j := 0) hv (by decide) (by decide)
  refine ⟨⟨fun h => ?_, fun _ h => absurd h (by decide +kernel)⟩, fun h => h1.mp ?_,
    fun h => C66_all_bitmaps hv (h1.mpr h) 5⟩
  · simp only [denseSlices, List.mem_filter, slicesOf_block (j := 0) hv (by decide)] at h
    exact absurd h.2 (by decide +kernel)
  · refine C66_elements (fun x hx => ?_)
    have hx : x < 31 := List.mem_range.mp hx
    unfold BitmapAligned at h ⊢
    rw [show x / 65536 = 5 / 65536 by omega, show x / 256 = 5 / 256 by omega]
    exact h

-- one element in each of 40 slices: the search passes a group for elements from slice 32 on
example : 33 ≤ (slicesOf ((List.range 40).map (· * 65536))).length ∧
    PassesGroup ((List.range 40).map (· * 65536)) (35 * 65536) ∧
    ¬ PassesGroup ((List.range 40).map (· * 65536)) (31 * 65536) := by
  have h : slicesOf ((List.range 40).map (· * 65536)) = List.range 40 := by
    apply sorted_ext (slicesOf_sorted _) (by decide)
    intro i
    rw [mem_slicesOf, List.mem_range]
    constructor
    · rintro ⟨-, x, hx, rfl⟩
      obtain ⟨j, hj, rfl⟩ := List.mem_map.mp hx
      have := List.mem_range.mp hj
      omega
    · intro h
      exact ⟨by omega, i * 65536, List.mem_map.mpr ⟨i, List.mem_range.mpr h, rfl⟩, by omega⟩
  unfold PassesGroup
  rw [h]
  refine ⟨by decide, ⟨32, by decide, by decide⟩, ?_⟩
  rintro ⟨j, h1, h2⟩
  have : j = 32 := by
    have : (List.range 40)[32]? = some 32 := by decide
    rw [this] at h1; cases h1; rfl
  omega

end Sliced
