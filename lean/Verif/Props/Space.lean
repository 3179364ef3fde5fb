import Verif.Proof.Space
import Verif.Props.Stored
/-!
# C67: how good the chosen encoding is, and how its size changes

C35 gives the exact size of an encoding.  Here it is compared with the smallest size that the same layout
allows, and with the sizes of the encodings of related lists.
-/
namespace Sliced

/-- bytes of a block of `n` elements, with its header, as a list or as a bitmap -/
def blockBytes (asList : Bool) (n : Nat) : Nat :=
  if n = 0 then 0 else if asList then n + 2 else 34

/-- bytes of slice `i` as a bitmap, or as blocks each of which is a list or a bitmap -/
def sliceWith (xs : List Nat) (i : Nat) : Option (Nat → Bool) → Nat
  | none => 8192
  | some asList => ((List.range 256).map (fun b => blockBytes (asList b) (blockCard xs (256 * i + b)))).sum

/-- The size of an encoding of `xs` in the same layout in which one is free to choose the form of each
slice and of each block (a slice of which all values are present needs no bytes in any case). -/
def sizeWith (xs : List Nat) (choice : Nat → Option (Nat → Bool)) : Nat :=
  2 + 8 * ((slicesOf xs).length / 32)
    + ((slicesOf xs).map (fun i => 8 + if sliceCard xs i = 65536 then 0 else sliceWith xs i (choice i))).sum

/-- the fewest bytes of a block of `n` elements -/
def blockLeast (n : Nat) : Nat := if n = 0 then 0 else min (n + 2) 34
/-- the fewest bytes of slice `i` made of blocks -/
def blocksLeast (xs : List Nat) (i : Nat) : Nat :=
  ((List.range 256).map (fun b => blockLeast (blockCard xs (256 * i + b)))).sum

variable {xs ys zs : List Nat} {dbg dbg' dbg'' : Bool} {st st' st'' : Stats} {bx bY bz : List UInt8}

/-! ## The choice of the forms -/

theorem sliceWith_cost (xs : List Nat) (i : Nat) (f : Nat → Bool) :
    33 * sparseCost xs i ≤ 34 * sliceWith xs i (some f) := by
  unfold sparseCost sliceWith
  refine sum_mul_le (fun b _ => ?_)
  unfold blockCost blockBytes
  split
  · omega
  · split <;> split <;> omega

theorem sliceWith_card (hv : Valid xs) (i : Nat) (f : Nat → Bool) :
    34 * sliceCard xs i ≤ 256 * sliceWith xs i (some f) := by
  rw [← sum_blockCard]
  unfold sliceWith
  refine sum_mul_le (fun b hb => ?_)
  have := blockCard_le hv i (List.mem_range.mp hb)
  unfold blockBytes
  split
  · omega
  · split <;> omega

theorem slice_ratio (hv : Valid xs) (i : Nat) (c : Option (Nat → Bool)) :
    109 * (8 + sliceBytes xs i) ≤ 205 * (8 + if sliceCard xs i = 65536 then 0 else sliceWith xs i c) := by
  unfold sliceBytes
  by_cases hf : sliceCard xs i = 65536
  · rw [if_pos hf, if_pos hf]; omega
  · rw [if_neg hf, if_neg hf]
    cases c with
    | none =>
      simp only [sliceWith]
      split <;> omega
    | some f =>
      have h1 := sliceWith_cost xs i f
      have h2 := sliceWith_card hv i f
      split <;> omega

/-- C67: whatever form is chosen for each slice and each block, the encoding that the code writes is at most
205/109 (less than 1.89) times as long. -/
theorem C67_ratio (hv : Valid xs) (hb : build_sequence dbg xs [] = .ok (st, bx))
    (choice : Nat → Option (Nat → Bool)) : 109 * bx.length ≤ 205 * sizeWith xs choice := by
  rw [C35_exact_size hv hb]
  unfold encodedSize sizeWith
  have := sum_mul_le (L := slicesOf xs) (a := 109) (b := 205) (f := fun i => 8 + sliceBytes xs i)
    (g := fun i => 8 + if sliceCard xs i = 65536 then 0 else sliceWith xs i (choice i))
    (fun i _ => slice_ratio hv i (choice i))
  omega

/-- C67: for a list all of whose slices are full or have fewer than 32768 elements, at most 34/33 times. -/
theorem C67_ratio_small (hv : Valid xs) (hb : build_sequence dbg xs [] = .ok (st, bx))
    (hs : ∀ i, sliceCard xs i = 65536 ∨ sliceCard xs i < 32768)
    (choice : Nat → Option (Nat → Bool)) : 33 * bx.length ≤ 34 * sizeWith xs choice := by
  rw [C35_exact_size hv hb]
  unfold encodedSize sizeWith
  have := sum_mul_le (L := slicesOf xs) (a := 33) (b := 34) (f := fun i => 8 + sliceBytes xs i)
    (g := fun i => 8 + if sliceCard xs i = 65536 then 0 else sliceWith xs i (choice i))
    (fun i _ => by
      have hi := hs i
      unfold sliceBytes
      by_cases hf : sliceCard xs i = 65536
      · simp only [if_pos hf]; omega
      · simp only [if_neg hf]
        cases choice i with
        | none =>
          simp only [sliceWith]
          split <;> omega
        | some f =>
          have h1 := sliceWith_cost xs i f
          split <;> omega)
  omega

theorem sum_blockBytes (xs : List Nat) (i : Nat) (f : Nat → Bool) :
    blocksLeast xs i ≤ sliceWith xs i (some f) := by
  unfold blocksLeast sliceWith
  refine sum_le_sum (fun b _ => ?_)
  unfold blockLeast blockBytes
  split
  · omega
  · split <;> omega

/-- a best choice -/
def bestChoice (xs : List Nat) (i : Nat) : Option (Nat → Bool) :=
  if blocksLeast xs i < 8192 then some (fun b => decide (blockCard xs (256 * i + b) ≤ 32)) else none

theorem bestChoice_eq (xs : List Nat) (i : Nat) :
    sliceWith xs i (bestChoice xs i) = min (blocksLeast xs i) 8192 := by
  unfold bestChoice
  by_cases h : blocksLeast xs i < 8192
  · rw [if_pos h, Nat.min_eq_left (by omega)]
    unfold sliceWith blocksLeast
    simp only
    congr 1
    refine List.map_congr_left (fun b _ => ?_)
    unfold blockBytes blockLeast
    split
    · rfl
    · split
      · rename_i h'
        have := of_decide_eq_true h'
        rw [Nat.min_eq_left (by omega)]
      · rename_i h'
        have := of_decide_eq_false (Bool.eq_false_iff.mpr h')
        rw [Nat.min_eq_right (by omega)]
  · rw [if_neg h, Nat.min_eq_right (by omega)]
    rfl

theorem bestChoice_le (xs : List Nat) (i : Nat) (c : Option (Nat → Bool)) :
    sliceWith xs i (bestChoice xs i) ≤ sliceWith xs i c := by
  rw [bestChoice_eq]
  cases c with
  | none => simp only [sliceWith]; omega
  | some f => have := sum_blockBytes xs i f; omega

theorem blocksLeast_le (xs : List Nat) (i : Nat) : blocksLeast xs i ≤ sparseCost xs i := by
  unfold blocksLeast sparseCost
  refine sum_le_sum (fun b _ => ?_)
  unfold blockLeast blockCost
  split
  · omega
  · split <;> omega

theorem sum_eq_iff {L : List Nat} {f g : Nat → Nat} (h : ∀ i ∈ L, f i ≤ g i) :
    (L.map g).sum ≤ (L.map f).sum ↔ ∀ i ∈ L, g i ≤ f i := by
  induction L with
  | nil => simp
  | cons a L ih =>
    have h1 := h a (by simp)
    have h2 : ∀ i ∈ L, f i ≤ g i := fun i hi => h i (by simp [hi])
    have h3 := ih h2
    have h4 := sum_le_sum h2
    simp only [List.map_cons, List.sum_cons]
    constructor
    · intro hle i hi
      rcases List.mem_cons.mp hi with rfl | hi
      · omega
      · exact h3.mp (by omega) i hi
    · intro hall
      have := hall a (by simp)
      have := h3.mpr (fun i hi => hall i (by simp [hi]))
      omega

/-- blocks cost more than necessary exactly if one of them has 31 elements -/
theorem sparseCost_le_least (xs : List Nat) (i : Nat) :
    sparseCost xs i ≤ blocksLeast xs i ↔ ∀ b, b < 256 → blockCard xs (256 * i + b) ≠ 31 := by
  unfold blocksLeast sparseCost
  rw [sum_eq_iff]
  · constructor
    · intro h b hb e
      have := h b (List.mem_range.mpr hb)
      rw [e] at this
      exact absurd this (by decide)
    · intro h b hb
      have := h b (List.mem_range.mp hb)
      unfold blockLeast blockCost
      split
      · omega
      · split <;> omega
  · intro b _
    unfold blockLeast blockCost
    split
    · omega
    · split <;> omega

/-- C67: no choice gives fewer bytes exactly if no slice stored as blocks has a block of exactly 31
elements (a list would take one byte less) and no slice stored as a bitmap could be stored in fewer than
8192 bytes as blocks. -/
theorem C67_optimal (hv : Valid xs) (hb : build_sequence dbg xs [] = .ok (st, bx)) :
    (∀ choice, bx.length ≤ sizeWith xs choice) ↔
      ∀ i ∈ slicesOf xs, sliceCard xs i ≠ 65536 →
        (sparseSlice xs i = true → ∀ b, b < 256 → blockCard xs (256 * i + b) ≠ 31) ∧
        (sparseSlice xs i = false → 8192 ≤ blocksLeast xs i) := by
  have hle : ∀ i ∈ slicesOf xs, (8 + if sliceCard xs i = 65536 then 0 else
      sliceWith xs i (bestChoice xs i)) ≤ 8 + sliceBytes xs i := by
    intro i _
    unfold sliceBytes
    have := blocksLeast_le xs i
    rw [bestChoice_eq]
    split
    · omega
    · split <;> omega
  have hall : (∀ choice, bx.length ≤ sizeWith xs choice) ↔ bx.length ≤ sizeWith xs (bestChoice xs) := by
    refine ⟨fun h => h _, fun h choice => Nat.le_trans h ?_⟩
    unfold sizeWith
    refine Nat.add_le_add_left (sum_le_sum (fun i _ => ?_)) _
    have := bestChoice_le xs i (choice i)
    split <;> omega
  rw [hall, C35_exact_size hv hb]
  unfold encodedSize sizeWith
  rw [Nat.add_le_add_iff_left, sum_eq_iff hle]
  refine forall_congr' (fun i => forall_congr' (fun hi => ?_))
  unfold sliceBytes
  by_cases hf : sliceCard xs i = 65536
  · simp only [hf, if_true, ne_eq, not_true_eq_false, false_implies]
    exact ⟨fun _ => trivial, fun _ => Nat.le_refl _⟩
  · simp only [if_neg hf, bestChoice_eq]
    by_cases hsp : sliceCard xs i < 32768 ∧ sparseCost xs i < 8192
    · have he : sparseSlice xs i = true := by unfold sparseSlice; exact decide_eq_true hsp
      rw [if_pos hsp]
      simp only [he, Bool.true_eq_false, false_implies, and_true, true_implies, ne_eq, hf,
        not_false_eq_true]
      rw [← sparseCost_le_least]
      have := blocksLeast_le xs i
      constructor <;> intro h <;> omega
    · have he : sparseSlice xs i = false := by unfold sparseSlice; exact decide_eq_false hsp
      rw [if_neg hsp]
      simp only [he, Bool.false_eq_true, false_implies, true_and, true_implies, ne_eq, hf,
        not_false_eq_true]
      constructor <;> intro h <;> omega

/-! ## One more element -/

theorem blockCard_insert {x : Nat} (hx : Valid xs) (hz : Valid zs) (hn : x ∉ xs)
    (h : ∀ v, v ∈ zs ↔ v = x ∨ v ∈ xs) (j : Nat) :
    blockCard zs j = blockCard xs j + if x / 256 = j then 1 else 0 := by
  unfold blockCard
  rw [filter_insert hx.2.1 hz.2.1 hn h]
  simp only [beq_iff_eq]

theorem sliceCard_insert {x : Nat} (hx : Valid xs) (hz : Valid zs) (hn : x ∉ xs)
    (h : ∀ v, v ∈ zs ↔ v = x ∨ v ∈ xs) (j : Nat) :
    sliceCard zs j = sliceCard xs j + if x / 65536 = j then 1 else 0 := by
  unfold sliceCard
  rw [filter_insert hx.2.1 hz.2.1 hn h]
  simp only [beq_iff_eq]

theorem sliceBytes_congr {i : Nat} (h1 : sliceCard zs i = sliceCard xs i)
    (h2 : ∀ b, b < 256 → blockCard zs (256 * i + b) = blockCard xs (256 * i + b)) :
    sliceBytes zs i = sliceBytes xs i := by
  have : sparseCost zs i = sparseCost xs i := by
    unfold sparseCost
    congr 1
    refine List.map_congr_left (fun b hb => ?_)
    rw [h2 b (List.mem_range.mp hb)]
  unfold sliceBytes
  rw [h1, this]

/-- the sizes with and without one element -/
theorem size_insert {x : Nat} (hx : Valid xs) (hz : Valid zs) (hn : x ∉ xs)
    (h : ∀ v, v ∈ zs ↔ v = x ∨ v ∈ xs) :
    ∃ k δ, (slicesOf xs).length = k ∧
      (slicesOf zs).length + sliceInd xs (x / 65536) = k + 1 ∧
      sparseCost zs (x / 65536) = sparseCost xs (x / 65536) + δ ∧ δ ≤ 3 ∧
      sliceCard zs (x / 65536) = sliceCard xs (x / 65536) + 1 ∧
      encodedSize zs + 8 * (k / 32) + sliceTotal xs (x / 65536)
        = encodedSize xs + 8 * ((slicesOf zs).length / 32) + sliceTotal zs (x / 65536) := by
  have hxz : x ∈ zs := (h x).mpr (Or.inl rfl)
  have hxb := hz.2.2 x hxz
  have hsc := sliceCard_insert hx hz hn h
  have hbc := blockCard_insert hx hz hn h
  have hoff : ∀ i, i ≠ x / 65536 → sliceCard zs i = sliceCard xs i ∧ sliceBytes zs i = sliceBytes xs i := by
    intro i hi
    have h1 : sliceCard zs i = sliceCard xs i := by rw [hsc, if_neg (fun e => hi e.symm)]; omega
    refine ⟨h1, sliceBytes_congr h1 (fun b hb => ?_)⟩
    rw [hbc, if_neg (by omega)]; omega
  have hind := sum_range_upd (f := sliceInd zs) (g := sliceInd xs) (k := x / 65536) (n := 65535)
    (by omega) (fun j _ hj => by unfold sliceInd; rw [(hoff j hj).1])
  have htot := sum_range_upd (f := sliceTotal zs) (g := sliceTotal xs) (k := x / 65536) (n := 65535)
    (by omega) (fun j _ hj => by unfold sliceTotal; rw [(hoff j hj).1, (hoff j hj).2])
  rw [← slices_sum, ← slices_sum] at hind
  have hz1 : sliceCard zs (x / 65536) = sliceCard xs (x / 65536) + 1 := by rw [hsc, if_pos rfl]
  have hi1 : sliceInd zs (x / 65536) = 1 := by unfold sliceInd; rw [if_neg (by omega)]
  have hsp := sum_range_upd (k := x / 256 % 256) (n := 256)
    (f := fun b => blockCost (blockCard zs (256 * (x / 65536) + b)))
    (g := fun b => blockCost (blockCard xs (256 * (x / 65536) + b))) (by omega)
    (fun j hj hne => by rw [hbc, if_neg (by omega), Nat.add_zero])
  rw [hbc (256 * (x / 65536) + x / 256 % 256), if_pos (by omega)] at hsp
  have ezs := encodedSize_sum zs
  have exs := encodedSize_sum xs
  generalize hB : blockCard xs (256 * (x / 65536) + x / 256 % 256) = n at hsp
  have hd : ∃ δ, blockCost (n + 1) = blockCost n + δ ∧ δ ≤ 3 := by
    refine ⟨blockCost (n + 1) - blockCost n, ?_, ?_⟩ <;> unfold blockCost <;>
      (split <;> (try split) <;> (try split) <;> (try split) <;> omega)
  obtain ⟨δ, hd1, hd2⟩ := hd
  refine ⟨_, δ, rfl, by omega, ?_, hd2, hz1, by omega⟩
  unfold sparseCost
  omega

/-- C67: one more element in a list.  The encoding becomes shorter only if the element is the last one
missing in its slice, and then by 8192 bytes.  Otherwise it grows by at most 19 bytes, or, if the slice
comes to exactly 32768 elements, by at most 3840. -/
theorem C67_insert {x : Nat} (hx : Valid xs) (hz : Valid zs) (hn : x ∉ xs)
    (h : ∀ v, v ∈ zs ↔ v = x ∨ v ∈ xs) (hbx : build_sequence dbg xs [] = .ok (st, bx))
    (hbz : build_sequence dbg' zs [] = .ok (st', bz)) :
    (sliceCard zs (x / 65536) = 65536 → bz.length + 8192 = bx.length) ∧
    (sliceCard zs (x / 65536) ≠ 65536 → bx.length ≤ bz.length ∧
      bz.length ≤ bx.length + if sliceCard zs (x / 65536) = 32768 then 3840 else 19) := by
  rw [C35_exact_size hx hbx, C35_exact_size hz hbz]
  obtain ⟨k, δ, -, h2, h3, h4, h5, h6⟩ := size_insert hx hz hn h
  have hlow := sparseCost_ge hx (x / 65536)
  have hcost := sparseCost_le hx.2.1 (x / 65536)
  have hle := sliceCard_le hz (x / 65536)
  unfold sliceTotal at h6
  unfold sliceInd at h2
  rw [if_neg (show ¬ sliceCard zs (x / 65536) = 0 by omega)] at h6
  unfold sliceBytes at h6
  rw [h3] at h6
  generalize (slicesOf zs).length = kz at *
  generalize sparseCost xs (x / 65536) = cx at *
  generalize hcz : sliceCard zs (x / 65536) = cz at *
  generalize hcx : sliceCard xs (x / 65536) = c at *
  generalize encodedSize zs = ez at *
  generalize encodedSize xs = ex at *
  constructor
  · intro hf
    rw [if_neg (by omega)] at h2
    rw [if_neg (by omega), if_neg (by omega), if_neg (by omega), if_pos hf] at h6
    obtain rfl : kz = k := by omega
    omega
  · intro hf
    rw [if_neg hf] at h6
    by_cases h0 : c = 0
    · rw [if_pos h0] at h2
      rw [if_pos h0] at h6
      rw [if_pos (by omega)] at h6
      rw [if_neg (by omega)]
      obtain rfl : kz = k + 1 := by omega
      omega
    · rw [if_neg h0] at h2
      rw [if_neg h0, if_neg (by omega)] at h6
      obtain rfl : kz = k := by omega
      by_cases ha : cz < 32768 ∧ cx + δ < 8192
      · rw [if_pos ha, if_pos (by omega)] at h6
        rw [if_neg (by omega)]
        omega
      · rw [if_neg ha] at h6
        by_cases hb : c < 32768 ∧ cx < 8192
        · rw [if_pos hb] at h6
          split <;> omega
        · rw [if_neg hb] at h6
          split <;> omega

/-! ## Unions and intersections -/

theorem blockCost_union {n a b : Nat} (h : n ≤ a + b) : blockCost n ≤ blockCost a + blockCost b := by
  unfold blockCost
  repeat' split
  all_goals omega

theorem blockCost_mono {n a : Nat} (h : n ≤ a) : blockCost n ≤ blockCost a := by
  unfold blockCost
  repeat' split
  all_goals omega

/-- The slices in which the union has at least 32768 elements, and not all values, though both lists have
fewer than 32768. -/
def crowded (xs ys zs : List Nat) (i : Nat) : Bool :=
  decide (sliceCard xs i < 32768 ∧ sliceCard ys i < 32768 ∧ 32768 ≤ sliceCard zs i ∧ sliceCard zs i ≠ 65536)

theorem div_add_le (a b : Nat) : (a + b) / 32 ≤ a / 32 + b / 32 + 1 := by omega

/-- C67: the encoding of a union is at most 6 bytes longer than those of the two lists together, plus 3832
bytes for each crowded slice. -/
theorem C67_union (hx : Valid xs) (hy : Valid ys) (hz : Valid zs)
    (h : ∀ v, v ∈ zs ↔ v ∈ xs ∨ v ∈ ys) (hbx : build_sequence dbg xs [] = .ok (st, bx))
    (hby : build_sequence dbg' ys [] = .ok (st', bY)) (hbz : build_sequence dbg'' zs [] = .ok (st'', bz)) :
    bz.length ≤ bx.length + bY.length + 6 + 3832 * ((slicesOf zs).filter (crowded xs ys zs)).length := by
  rw [C35_exact_size hx hbx, C35_exact_size hy hby, C35_exact_size hz hbz]
  have hsl : ∀ i, sliceCard zs i ≤ sliceCard xs i + sliceCard ys i ∧ sliceCard xs i ≤ sliceCard zs i ∧
      sliceCard ys i ≤ sliceCard zs i := fun i => filter_union hx.2.1 hy.2.1 hz.2.1 h
  have hbl : ∀ j, blockCard zs j ≤ blockCard xs j + blockCard ys j ∧ blockCard xs j ≤ blockCard zs j ∧
      blockCard ys j ≤ blockCard zs j := fun j => filter_union hx.2.1 hy.2.1 hz.2.1 h
  have hcost : ∀ i, sparseCost zs i ≤ sparseCost xs i + sparseCost ys i := by
    intro i
    unfold sparseCost
    exact sum_add_le (fun b _ => blockCost_union (hbl _).1)
  have hmx : ∀ i, sparseCost xs i ≤ sparseCost zs i := fun i =>
    sum_le_sum (fun b _ => blockCost_mono (hbl _).2.1)
  have hmy : ∀ i, sparseCost ys i ≤ sparseCost zs i := fun i =>
    sum_le_sum (fun b _ => blockCost_mono (hbl _).2.2)
  have hk : (slicesOf zs).length ≤ (slicesOf xs).length + (slicesOf ys).length := by
    rw [slices_sum, slices_sum, slices_sum]
    refine sum_add_le (fun i _ => ?_)
    have := hsl i
    unfold sliceInd
    repeat' split
    all_goals omega
  have hT : ((List.range 65535).map (sliceTotal zs)).sum ≤
      ((List.range 65535).map (fun i => sliceTotal xs i + sliceTotal ys i)).sum
        + ((List.range 65535).map (fun i => if (crowded xs ys zs i && decide (sliceCard zs i ≠ 0)) = true
            then 3832 else 0)).sum := by
    refine sum_add_le (fun i _ => ?_)
    have h1 := hsl i
    have h2 := hcost i
    have h3 := sparseCost_ge hz i
    have h4 := sliceCard_le hz i
    have h5 := hmx i
    have h6 := hmy i
    have h7 := sparseCost_le hx.2.1 i
    have h8 := sparseCost_le hy.2.1 i
    unfold sliceTotal
    by_cases hc : sliceCard xs i < 32768 ∧ sliceCard ys i < 32768 ∧ 32768 ≤ sliceCard zs i ∧
        sliceCard zs i ≠ 65536
    · rw [if_pos (show (crowded xs ys zs i && decide (sliceCard zs i ≠ 0)) = true by
        unfold crowded
        rw [decide_eq_true hc, decide_eq_true (by omega)]; rfl)]
      unfold sliceBytes
      rw [if_neg (show ¬ sliceCard zs i = 0 by omega), if_neg (show ¬ sliceCard zs i = 65536 by omega),
        if_neg (show ¬ (sliceCard zs i < 32768 ∧ sparseCost zs i < 8192) by omega),
        if_neg (show ¬ sliceCard xs i = 0 by omega), if_neg (show ¬ sliceCard xs i = 65536 by omega),
        if_neg (show ¬ sliceCard ys i = 0 by omega), if_neg (show ¬ sliceCard ys i = 65536 by omega)]
      split <;> split <;> omega
    · rw [if_neg (show ¬ (crowded xs ys zs i && decide (sliceCard zs i ≠ 0)) = true by
        unfold crowded
        rw [decide_eq_false hc]; simp)]
      unfold sliceBytes
      by_cases z0 : sliceCard zs i = 0
      · rw [if_pos z0]; omega
      · rw [if_neg z0]
        by_cases zf : sliceCard zs i = 65536
        · rw [if_pos zf]
          repeat' split
          all_goals omega
        · rw [if_neg zf]
          repeat' split
          all_goals omega
  have hsplit : ((List.range 65535).map (fun i => sliceTotal xs i + sliceTotal ys i)).sum
      ≤ ((List.range 65535).map (sliceTotal xs)).sum + ((List.range 65535).map (sliceTotal ys)).sum :=
    sum_add_le (fun i _ => Nat.le_refl _)
  have hcr : ((List.range 65535).map (fun i => if (crowded xs ys zs i && decide (sliceCard zs i ≠ 0)) = true
      then 3832 else 0)).sum ≤ 3832 * ((slicesOf zs).filter (crowded xs ys zs)).length := by
    unfold slicesOf
    rw [List.filter_filter, length_filter_sum]
    have := sum_mul_le (L := List.range 65535) (a := 1) (b := 3832)
      (f := fun i => if (crowded xs ys zs i && decide (sliceCard zs i ≠ 0)) = true then 3832 else 0)
      (g := fun i => if (crowded xs ys zs i && decide (sliceCard zs i ≠ 0)) = true then 1 else 0)
      (fun i _ => by split <;> omega)
    omega
  have ex := encodedSize_sum xs
  have ey := encodedSize_sum ys
  have ez := encodedSize_sum zs
  have hd := div_add_le (slicesOf xs).length (slicesOf ys).length
  have hd2 : (slicesOf zs).length / 32 ≤ ((slicesOf xs).length + (slicesOf ys).length) / 32 :=
    Nat.div_le_div_right hk
  omega

/-- C67: without crowded slices the encoding of the union is at most 6 bytes longer than the two. -/
theorem C67_union_plain (hx : Valid xs) (hy : Valid ys) (hz : Valid zs)
    (h : ∀ v, v ∈ zs ↔ v ∈ xs ∨ v ∈ ys)
    (hc : ∀ i, sliceCard zs i < 32768 ∨ sliceCard zs i = 65536 ∨ 32768 ≤ sliceCard xs i ∨
      32768 ≤ sliceCard ys i)
    (hbx : build_sequence dbg xs [] = .ok (st, bx))
    (hby : build_sequence dbg' ys [] = .ok (st', bY)) (hbz : build_sequence dbg'' zs [] = .ok (st'', bz)) :
    bz.length ≤ bx.length + bY.length + 6 := by
  have := C67_union hx hy hz h hbx hby hbz
  have h0 : (slicesOf zs).filter (crowded xs ys zs) = [] := by
    rw [List.filter_eq_nil_iff]
    intro i _ hi
    have := of_decide_eq_true hi
    have := hc i
    omega
  rw [h0] at this
  simpa using this

/-- C67: the encoding of an intersection is not longer than that of a list of which no slice is full. -/
theorem C67_intersection (hy : Valid ys) (hz : Valid zs)
    (h : ∀ v ∈ zs, v ∈ ys) (hf : ∀ i, sliceCard ys i ≠ 65536)
    (hby : build_sequence dbg ys [] = .ok (st, bY)) (hbz : build_sequence dbg' zs [] = .ok (st', bz)) :
    bz.length ≤ bY.length := by
  rw [C35_exact_size hy hby, C35_exact_size hz hbz]
  have hsl : ∀ i, sliceCard zs i ≤ sliceCard ys i := fun i => filter_sub hy.2.1 hz.2.1 h
  have hbl : ∀ j, blockCard zs j ≤ blockCard ys j := fun j => filter_sub hy.2.1 hz.2.1 h
  have hcost : ∀ i, sparseCost zs i ≤ sparseCost ys i := fun i =>
    sum_le_sum (fun b _ => blockCost_mono (hbl _))
  have hk : (slicesOf zs).length ≤ (slicesOf ys).length := by
    rw [slices_sum, slices_sum]
    refine sum_le_sum (fun i _ => ?_)
    have := hsl i
    unfold sliceInd
    split <;> split <;> omega
  have hT : ((List.range 65535).map (sliceTotal zs)).sum ≤ ((List.range 65535).map (sliceTotal ys)).sum := by
    refine sum_le_sum (fun i _ => ?_)
    have h1 := hsl i
    have h2 := hcost i
    have h3 := hf i
    have h4 := sliceCard_le hy i
    unfold sliceTotal sliceBytes
    repeat' split
    all_goals omega
  rw [encodedSize_sum, encodedSize_sum]
  have : (slicesOf zs).length / 32 ≤ (slicesOf ys).length / 32 := Nat.div_le_div_right hk
  omega

/-! ## Concrete lists -/

/-- counts of an interval -/
theorem interval_count (a n w j : Nat) (hw : 0 < w) :
    ((List.range' a n).filter (fun x => x / w == j)).length = min (a + n) (w * (j + 1)) - max a (w * j) := by
  have hm : (List.range' a n).filter (fun x => x / w == j)
      = List.range' (max a (w * j)) (min (a + n) (w * (j + 1)) - max a (w * j)) := by
    apply sorted_ext ((range'_sorted _ _).filter _) (range'_sorted _ _)
    intro v
    rw [List.mem_filter, List.mem_range'_1, List.mem_range'_1, beq_iff_eq]
    have key : v / w = j ↔ w * j ≤ v ∧ v < w * (j + 1) := by
      constructor
      · rintro rfl
        have h1 := Nat.div_add_mod v w
        have h2 := Nat.mod_lt v hw
        rw [Nat.mul_add, Nat.mul_one]
        omega
      · rintro ⟨h1, h2⟩
        rw [Nat.div_eq_iff hw]
        rw [Nat.mul_add, Nat.mul_one] at h2
        rw [Nat.mul_comm j w]
        omega
    rw [key]
    omega
  rw [hm, List.length_range']

theorem interval_valid {a n : Nat} (hn : 0 < n) (h : a + n ≤ 65536) : Valid (List.range' a n) := by
  refine ⟨?_, range'_sorted _ _, ?_⟩
  · intro e
    have := congrArg List.length e
    rw [List.length_range'] at this
    simp at this
    omega
  · intro x hx
    rw [List.mem_range'_1] at hx
    omega

theorem interval_slices {a n : Nat} (hn : 0 < n) (h : a + n ≤ 65536) : slicesOf (List.range' a n) = [0] := by
  apply sorted_ext (slicesOf_sorted _) (by simp)
  intro i
  rw [mem_slicesOf, List.mem_singleton]
  constructor
  · rintro ⟨-, x, hx, rfl⟩
    rw [List.mem_range'_1] at hx
    omega
  · rintro rfl
    exact ⟨by omega, a, by rw [List.mem_range'_1]; omega, by omega⟩

theorem interval_size {a n : Nat} (hn : 0 < n) (h : a + n ≤ 65536) :
    encodedSize (List.range' a n) = 10 + if n = 65536 then 0 else
      let c := ((List.range 256).map (fun b => blockCost (min (a + n) (256 * (256 * 0 + b + 1))
        - max a (256 * (256 * 0 + b))))).sum
      if n < 32768 ∧ c < 8192 then c else 8192 := by
  have hc : sliceCard (List.range' a n) 0 = n := by
    unfold sliceCard
    rw [interval_count _ _ _ _ (by omega)]
    omega
  have hs : sparseCost (List.range' a n) 0 = ((List.range 256).map (fun b => blockCost (min (a + n)
      (256 * (256 * 0 + b + 1)) - max a (256 * (256 * 0 + b))))).sum := by
    unfold sparseCost blockCard
    simp only [interval_count _ _ 256 _ (by omega : 0 < 256)]
  unfold encodedSize
  rw [interval_slices hn h]
  simp only [List.map_cons, List.map_nil, List.sum_cons, List.sum_nil, List.length_singleton]
  unfold sliceBytes
  rw [hc, hs]
  omega

/-- C67: how far the choice is from the best.  The numbers below 32768 take 8202 bytes, where 4362 are
possible; the numbers below 31 take 44 bytes, where 43 are possible. -/
theorem C67_ratio_reached :
    (∃ st b, build_sequence true (List.range' 0 32768) [] = .ok (st, b) ∧ b.length = 8202 ∧
      sizeWith (List.range' 0 32768) (fun _ => some (fun _ => false)) = 4362) ∧
    (∃ st b, build_sequence true (List.range' 0 31) [] = .ok (st, b) ∧ b.length = 44 ∧
      sizeWith (List.range' 0 31) (fun _ => some (fun _ => true)) = 43) := by
  have key : ∀ n f, 0 < n → n < 65536 → sizeWith (List.range' 0 n) (fun _ => some f) = 10 +
      ((List.range 256).map (fun b => blockBytes (f b) (min (0 + n) (256 * (256 * 0 + b + 1))
        - max 0 (256 * (256 * 0 + b))))).sum := by
    intro n f h0 h1
    have hc : sliceCard (List.range' 0 n) 0 = n := by
      unfold sliceCard
      rw [interval_count _ _ _ _ (by omega)]
      omega
    unfold sizeWith
    rw [interval_slices h0 (by omega)]
    simp only [List.map_cons, List.map_nil, List.sum_cons, List.sum_nil, List.length_singleton]
    rw [hc, if_neg (by omega)]
    unfold sliceWith blockCard
    simp only [interval_count _ _ 256 _ (by omega : 0 < 256)]
    omega
  refine ⟨?_, ?_⟩
  · have hv := interval_valid (a := 0) (n := 32768) (by omega) (by omega)
    obtain ⟨st, b, hb, -⟩ := stored_total true hv
    refine ⟨st, b, hb, ?_, ?_⟩
    · rw [C35_exact_size hv hb, interval_size (by omega) (by omega)]
      decide +kernel
    · rw [key _ _ (by omega) (by omega)]
      decide +kernel
  · have hv := interval_valid (a := 0) (n := 31) (by omega) (by omega)
    obtain ⟨st, b, hb, -⟩ := stored_total true hv
    refine ⟨st, b, hb, ?_, ?_⟩
    · rw [C35_exact_size hv hb, interval_size (by omega) (by omega)]
      decide +kernel
    · rw [key _ _ (by omega) (by omega)]
      decide +kernel

/-- C67: one element more: the numbers below 32768 take 3840 bytes more than those below 32767, and the
numbers below 65536 take 8192 bytes less than those below 65535. -/
theorem C67_insert_reached :
    ∃ st b st' b' st'' b'' st''' b''', build_sequence true (List.range' 0 32767) [] = .ok (st, b) ∧
      build_sequence true (List.range' 0 32768) [] = .ok (st', b') ∧
      build_sequence true (List.range' 0 65535) [] = .ok (st'', b'') ∧
      build_sequence true (List.range' 0 65536) [] = .ok (st''', b''') ∧
      b.length = 4362 ∧ b'.length = 8202 ∧ b''.length = 8202 ∧ b'''.length = 10 := by
  have h1 := interval_valid (a := 0) (n := 32767) (by omega) (by omega)
  have h2 := interval_valid (a := 0) (n := 32768) (by omega) (by omega)
  have h3 := interval_valid (a := 0) (n := 65535) (by omega) (by omega)
  have h4 := interval_valid (a := 0) (n := 65536) (by omega) (by omega)
  obtain ⟨s1, b1, e1, -⟩ := stored_total true h1
  obtain ⟨s2, b2, e2, -⟩ := stored_total true h2
  obtain ⟨s3, b3, e3, -⟩ := stored_total true h3
  obtain ⟨s4, b4, e4, -⟩ := stored_total true h4
  refine ⟨s1, b1, s2, b2, s3, b3, s4, b4, e1, e2, e3, e4, ?_, ?_, ?_, ?_⟩
  · rw [C35_exact_size h1 e1, interval_size (by omega) (by omega)]; decide +kernel
  · rw [C35_exact_size h2 e2, interval_size (by omega) (by omega)]; decide +kernel
  · rw [C35_exact_size h3 e3, interval_size (by omega) (by omega)]; decide +kernel
  · rw [C35_exact_size h4 e4, interval_size (by omega) (by omega)]; decide +kernel

/-- the lowest value of each slice in `L` -/
theorem lowest_size {L : List Nat} (hs : L.Pairwise (· < ·)) (h : ∀ i ∈ L, i < 65535) :
    encodedSize (L.map (65536 * ·)) = 2 + 8 * (L.length / 32) + 11 * L.length := by
  have hmem : ∀ v, v ∈ L.map (65536 * ·) ↔ ∃ i ∈ L, 65536 * i = v := by
    intro v; rw [List.mem_map]
  have hs' : (L.map (65536 * ·)).Pairwise (· < ·) := by
    rw [List.pairwise_map]
    exact hs.imp (fun h => by omega)
  have hsl : slicesOf (L.map (65536 * ·)) = L := by
    apply sorted_ext (slicesOf_sorted _) hs
    intro i
    rw [mem_slicesOf]
    constructor
    · rintro ⟨-, x, hx, rfl⟩
      obtain ⟨j, hj, rfl⟩ := (hmem x).mp hx
      rwa [show 65536 * j / 65536 = j by omega]
    · intro hi
      exact ⟨h i hi, 65536 * i, (hmem _).mpr ⟨i, hi, rfl⟩, by omega⟩
  have hone : ∀ i ∈ L, ∀ w, 0 < w → ∀ j, (w = 256 ∧ j / 256 = i ∨ w = 65536 ∧ j = i) →
      ((L.map (65536 * ·)).filter (fun x => x / w == j)).length = if 65536 * i / w = j then 1 else 0 := by
    intro i hi w hw j hj
    have : (L.map (65536 * ·)).filter (fun x => x / w == j) = if 65536 * i / w = j then [65536 * i] else [] := by
      apply sorted_ext (hs'.filter _)
      · split <;> simp
      · intro v
        rw [List.mem_filter, hmem, beq_iff_eq]
        constructor
        · rintro ⟨⟨k, hk, rfl⟩, e⟩
          obtain rfl : k = i := by rcases hj with ⟨rfl, hj⟩ | ⟨rfl, rfl⟩ <;> omega
          rw [if_pos e]; simp
        · intro hv
          split at hv
          · rename_i e
            rw [List.mem_singleton] at hv
            subst hv
            exact ⟨⟨i, hi, rfl⟩, e⟩
          · exact absurd hv (by simp)
    rw [this]
    split <;> rfl
  have hb : ∀ i ∈ L, sliceBytes (L.map (65536 * ·)) i = 3 := by
    intro i hi
    have hc : sliceCard (L.map (65536 * ·)) i = 1 := by
      unfold sliceCard
      rw [hone i hi 65536 (by omega) i (Or.inr ⟨rfl, rfl⟩), if_pos (by omega)]
    have hbl : ∀ b, b < 256 → blockCard (L.map (65536 * ·)) (256 * i + b) = if b = 0 then 1 else 0 := by
      intro b hb
      unfold blockCard
      rw [hone i hi 256 (by omega) _ (Or.inl ⟨rfl, by omega⟩)]
      by_cases h0 : b = 0
      · rw [if_pos (by omega), if_pos h0]
      · rw [if_neg (by omega), if_neg h0]
    have hsp : sparseCost (L.map (65536 * ·)) i = 3 := by
      unfold sparseCost
      rw [sum_range_single (k := 0) (by omega) (fun j hj hne => by rw [hbl j hj, if_neg hne]; rfl),
        hbl 0 (by omega)]
      rfl
    unfold sliceBytes
    rw [hc, hsp]
    rfl
  unfold encodedSize
  rw [hsl]
  have : (L.map (fun i => 8 + sliceBytes (L.map (65536 * ·)) i)) = L.map (fun _ => 11) := by
    refine List.map_congr_left (fun i hi => ?_)
    rw [hb i hi]
  rw [this, List.map_const', List.sum_replicate_nat, Nat.mul_comm 11]

theorem lowest_valid {L : List Nat} (hne : L ≠ []) (hs : L.Pairwise (· < ·)) (h : ∀ i ∈ L, i < 65535) :
    Valid (L.map (65536 * ·)) := by
  refine ⟨by simpa using hne, ?_, ?_⟩
  · rw [List.pairwise_map]
    exact hs.imp (fun h => by omega)
  · intro x hx
    obtain ⟨i, hi, rfl⟩ := List.mem_map.mp hx
    have := h i hi
    omega

/-- C67: 19 more bytes for one more element, and 6 more bytes for a union than for the two lists: the
lowest values of the first 31 and 32 slices, and of the first 16 and the next 16. -/
theorem C67_skip_reached :
    ∃ st b st' b' st'' b'' st''' b''',
      build_sequence true ((List.range' 0 31).map (65536 * ·)) [] = .ok (st, b) ∧
      build_sequence true ((List.range' 0 32).map (65536 * ·)) [] = .ok (st', b') ∧
      build_sequence true ((List.range' 0 16).map (65536 * ·)) [] = .ok (st'', b'') ∧
      build_sequence true ((List.range' 16 16).map (65536 * ·)) [] = .ok (st''', b''') ∧
      b'.length = b.length + 19 ∧ b'.length = b''.length + b'''.length + 6 := by
  have hv : ∀ a n, 0 < n → a + n ≤ 32 → Valid ((List.range' a n).map (65536 * ·)) ∧
      encodedSize ((List.range' a n).map (65536 * ·)) = 2 + 8 * (n / 32) + 11 * n := by
    intro a n h0 h1
    have hlt : ∀ i ∈ List.range' a n, i < 65535 := by
      intro i hi; rw [List.mem_range'_1] at hi; omega
    have := lowest_size (range'_sorted a n) hlt
    rw [List.length_range'] at this
    exact ⟨lowest_valid (interval_valid h0 (by omega)).1 (range'_sorted _ _) hlt, this⟩
  obtain ⟨s1, b1, e1, -⟩ := stored_total true (hv 0 31 (by omega) (by omega)).1
  obtain ⟨s2, b2, e2, -⟩ := stored_total true (hv 0 32 (by omega) (by omega)).1
  obtain ⟨s3, b3, e3, -⟩ := stored_total true (hv 0 16 (by omega) (by omega)).1
  obtain ⟨s4, b4, e4, -⟩ := stored_total true (hv 16 16 (by omega) (by omega)).1
  refine ⟨s1, b1, s2, b2, s3, b3, s4, b4, e1, e2, e3, e4, ?_, ?_⟩
  · rw [C35_exact_size (hv 0 31 (by omega) (by omega)).1 e1,
      C35_exact_size (hv 0 32 (by omega) (by omega)).1 e2, (hv 0 31 (by omega) (by omega)).2,
      (hv 0 32 (by omega) (by omega)).2]
  · rw [C35_exact_size (hv 0 32 (by omega) (by omega)).1 e2,
      C35_exact_size (hv 0 16 (by omega) (by omega)).1 e3,
      C35_exact_size (hv 16 16 (by omega) (by omega)).1 e4, (hv 0 32 (by omega) (by omega)).2,
      (hv 0 16 (by omega) (by omega)).2, (hv 16 16 (by omega) (by omega)).2]

/-- C67: the union of two lists can take almost twice as many bytes as the two together (2186 bytes
each, 8202 bytes for their union), and the intersection with a list of 10 bytes can take 4362 bytes. -/
theorem C67_larger :
    (∃ st b st' b' st'' b'', build_sequence true (List.range' 0 16384) [] = .ok (st, b) ∧
      build_sequence true (List.range' 16384 16384) [] = .ok (st', b') ∧
      build_sequence true (List.range' 0 32768) [] = .ok (st'', b'') ∧
      (∀ v, v ∈ List.range' 0 32768 ↔ v ∈ List.range' 0 16384 ∨ v ∈ List.range' 16384 16384) ∧
      b.length = 2186 ∧ b'.length = 2186 ∧ b''.length = 8202) ∧
    (∃ st b st' b', build_sequence true (List.range' 0 65536) [] = .ok (st, b) ∧
      build_sequence true (List.range' 0 32767) [] = .ok (st', b') ∧
      (∀ v, v ∈ List.range' 0 32767 → v ∈ List.range' 0 65536) ∧ b.length = 10 ∧ b'.length = 4362) := by
  refine ⟨?_, ?_⟩
  · have h1 := interval_valid (a := 0) (n := 16384) (by omega) (by omega)
    have h2 := interval_valid (a := 16384) (n := 16384) (by omega) (by omega)
    have h3 := interval_valid (a := 0) (n := 32768) (by omega) (by omega)
    obtain ⟨s1, b1, e1, -⟩ := stored_total true h1
    obtain ⟨s2, b2, e2, -⟩ := stored_total true h2
    obtain ⟨s3, b3, e3, -⟩ := stored_total true h3
    refine ⟨s1, b1, s2, b2, s3, b3, e1, e2, e3, ?_, ?_, ?_, ?_⟩
    · intro v
      rw [List.mem_range'_1, List.mem_range'_1, List.mem_range'_1]
      omega
    · rw [C35_exact_size h1 e1, interval_size (by omega) (by omega)]; decide +kernel
    · rw [C35_exact_size h2 e2, interval_size (by omega) (by omega)]; decide +kernel
    · rw [C35_exact_size h3 e3, interval_size (by omega) (by omega)]; decide +kernel
  · have h1 := interval_valid (a := 0) (n := 65536) (by omega) (by omega)
    have h2 := interval_valid (a := 0) (n := 32767) (by omega) (by omega)
    obtain ⟨s1, b1, e1, -⟩ := stored_total true h1
    obtain ⟨s2, b2, e2, -⟩ := stored_total true h2
    refine ⟨s1, b1, s2, b2, e1, e2, ?_, ?_, ?_⟩
    · intro v
      rw [List.mem_range'_1, List.mem_range'_1]
      omega
    · rw [C35_exact_size h1 e1, interval_size (by omega) (by omega)]; decide +kernel
    · rw [C35_exact_size h2 e2, interval_size (by omega) (by omega)]; decide +kernel

/-- C67: an optimal encoding (30 elements in one block), and one that is not (31 elements). -/
theorem C67_optimal_both :
    (∃ st b, build_sequence true (List.range' 0 30) [] = .ok (st, b) ∧
      ∀ choice, b.length ≤ sizeWith (List.range' 0 30) choice) ∧
    (∃ st b, build_sequence true (List.range' 0 31) [] = .ok (st, b) ∧
      ¬ ∀ choice, b.length ≤ sizeWith (List.range' 0 31) choice) := by
  refine ⟨?_, ?_⟩
  · have hv := interval_valid (a := 0) (n := 30) (by omega) (by omega)
    obtain ⟨st, b, hb, -⟩ := stored_total true hv
    refine ⟨st, b, hb, ?_⟩
    rw [C67_optimal hv hb]
    intro i hi _
    rw [interval_slices (by omega) (by omega), List.mem_singleton] at hi
    subst hi
    refine ⟨fun _ b _ => ?_, fun hs => ?_⟩
    · unfold blockCard
      rw [interval_count _ _ _ _ (by omega)]
      omega
    · have hc : sliceCard (List.range' 0 30) 0 = 30 := by
        unfold sliceCard
        rw [interval_count _ _ _ _ (by omega)]
        omega
      have h3 := sparseCost_le hv.2.1 0
      unfold sparseSlice at hs
      have := of_decide_eq_false hs
      omega
  · obtain ⟨st, b, hb, hl, hs⟩ := C67_ratio_reached.2
    refine ⟨st, b, hb, fun h => ?_⟩
    have := h (fun _ => some (fun _ => true))
    rw [hl, hs] at this
    omega

/-! ### The hypotheses are met -/

/-- the encoding of `[3, 5, 300, 70000]`, with any way of writing its slices, and with 4 inserted -/
example (choice : Nat → Option (Nat → Bool)) : ∃ st b, build_sequence true [3, 5, 300, 70000] [] = .ok (st, b) ∧
    109 * b.length ≤ 205 * sizeWith [3, 5, 300, 70000] choice ∧
    33 * b.length ≤ 34 * sizeWith [3, 5, 300, 70000] choice := by
  obtain ⟨st, b, hb, -⟩ := stored_total true small_valid
  refine ⟨st, b, hb, C67_ratio small_valid hb choice, C67_ratio_small small_valid hb (fun i => .inr ?_) choice⟩
  exact Nat.lt_of_le_of_lt (List.length_filter_le _ _) (by simp)

example : ∃ st b st' b', build_sequence true [3, 5, 300, 70000] [] = .ok (st, b) ∧
    build_sequence false [3, 4, 5, 300, 70000] [] = .ok (st', b') ∧ b.length ≤ b'.length ∧
    b'.length ≤ b.length + 19 := by
  have hv : Valid [3, 4, 5, 300, 70000] := ⟨by decide, by decide, by decide⟩
  obtain ⟨st, b, hb, -⟩ := stored_total true small_valid
  obtain ⟨st', b', hb', -⟩ := stored_total false hv
  have h := (C67_insert (x := 4) small_valid hv (by decide) (fun v => by simp; omega) hb hb').2 (by decide)
  rw [if_neg (by decide)] at h
  exact ⟨st, b, st', b', hb, hb', h⟩

example : ∃ st b st' b' st'' b'', build_sequence true [3, 70000] [] = .ok (st, b) ∧
    build_sequence false [5, 300] [] = .ok (st', b') ∧
    build_sequence true [3, 5, 300, 70000] [] = .ok (st'', b'') ∧
    b''.length ≤ b.length + b'.length + 6 ∧ b.length ≤ b''.length := by
  have hx : Valid [3, 70000] := ⟨by decide, by decide, by decide⟩
  have hy : Valid [5, 300] := ⟨by decide, by decide, by decide⟩
  obtain ⟨st, b, hb, -⟩ := stored_total true hx
  obtain ⟨st', b', hb', -⟩ := stored_total false hy
  obtain ⟨st'', b'', hb'', -⟩ := stored_total true small_valid
  refine ⟨st, b, st', b', st'', b'', hb, hb', hb'', ?_, ?_⟩
  · exact C67_union_plain hx hy small_valid (fun v => by simp; omega)
      (fun i => .inl (Nat.lt_of_le_of_lt (List.length_filter_le _ _) (by simp))) hb hb' hb''
  · exact C67_intersection small_valid hx (fun v hv => by simp at hv ⊢; omega)
      (fun i h => absurd h (Nat.ne_of_lt (Nat.lt_of_le_of_lt (List.length_filter_le _ _) (by simp)))) hb'' hb

end Sliced
