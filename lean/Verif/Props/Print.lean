import Verif.Props.Histogram
import Verif.Props.Index
import Verif.Proof.Tools
/-!
# The histograms of a collection (C36) and printing them (C46)
-/
namespace Sliced

variable {dbg : Bool} {params : Params} {univ : Nat} {lists : List (List Nat)} {xs : List Nat}
  {st : Stats} {bytes seqs : List UInt8} {offs : List Nat} {log : Nat → Nat → Nat}

theorem sum_map_congr {f g : List Nat → Nat} : ∀ {L : List (List Nat)}, (∀ x ∈ L, f x = g x) →
    (L.map f).sum = (L.map g).sum := by
  intro L h
  rw [List.map_congr_left h]

/-- C36, for a collection: the histograms count over all lists that are kept -/
theorem C36_collection (hg : GoodCollection params univ lists)
    (hb : build_index dbg params (collection univ lists) = .ok (offs, seqs, st)) :
    (∀ b, b ≤ 256 → st.num_blocks_in_chunks[b]?
      = some (((keptLists params lists).map (slicesWith · b)).sum)) ∧
    (∀ b, b ≤ 256 → st.num_integers[b]?
      = some (((keptLists params lists).map (integersWith · b)).sum)) ∧
    (∀ n, 1 ≤ n → n ≤ 30 → st.sparse_blocks_cardinalities[n]?
      = some (((keptLists params lists).map (storedBlocksWith · n)).sum)) := by
  obtain ⟨st', e, st1, h, rfl⟩ := build_index_spec (dbg := dbg) hg
  rw [hb] at e
  simp only [Except.ok.injEq, Prod.mk.injEq] at e
  obtain ⟨-, -, rfl⟩ := e
  refine ⟨?_, ?_, ?_⟩
  · intro b hb'
    refine (h.nb b).trans ((getElem?_replicate_zero_map (by omega)).trans (congrArg some ?_))
    exact sum_map_congr (fun x _ => histBlocks_slices x b)
  · intro b hb'
    refine (h.ni b).trans ((getElem?_replicate_zero_map (by omega)).trans (congrArg some ?_))
    exact sum_map_congr (fun x hx => histInts_slices (keptLists_valid hg x hx) b)
  · intro n hn1 hn2
    refine (h.hist n hn1 (by omega)).trans
      ((getElem?_replicate_zero_map (by omega)).trans (congrArg some ?_))
    exact sum_map_congr (fun x _ => hist_slices x hn1)

/-! ## C46 -/

/-- some list of the collection has a slice that is stored as `b` blocks -/
def HasSliceWith (ks : List (List Nat)) (b : Nat) : Prop :=
  ∃ xs ∈ ks, ∃ i, sliceCard xs i ≠ 0 ∧ sparseSlice xs i = true ∧ sliceBlocks xs i = b

theorem sliceCard_pos {i : Nat} (h : sliceCard xs i ≠ 0) : ∃ x ∈ xs, x / 65536 = i := by
  unfold sliceCard at h
  obtain ⟨x, hx⟩ := List.exists_mem_of_length_pos (Nat.pos_of_ne_zero h)
  rw [List.mem_filter] at hx
  exact ⟨x, hx.1, by simpa using hx.2⟩

theorem slicesWith_pos (hv : Valid xs) (b : Nat) : slicesWith xs b ≠ 0 ↔
    ∃ i, sliceCard xs i ≠ 0 ∧ sparseSlice xs i = true ∧ sliceBlocks xs i = b := by
  unfold slicesWith slicesOf
  rw [List.filter_filter]
  constructor
  · intro h
    obtain ⟨i, hi⟩ := List.exists_mem_of_length_pos (Nat.pos_of_ne_zero h)
    simp only [List.mem_filter, List.mem_range, Bool.and_eq_true, beq_iff_eq,
      decide_eq_true_eq] at hi
    exact ⟨i, hi.2.2, hi.2.1.1, hi.2.1.2⟩
  · rintro ⟨i, h1, h2, h3⟩
    obtain ⟨x, hx, rfl⟩ := sliceCard_pos h1
    have := hv.2.2 x hx
    refine Nat.ne_of_gt (List.length_pos_of_mem (a := x / 65536) ?_)
    simp only [List.mem_filter, List.mem_range, Bool.and_eq_true, beq_iff_eq, decide_eq_true_eq]
    exact ⟨by omega, ⟨h2, h3⟩, h1⟩

theorem sum_ne_zero_iff {α : Type} {f : α → Nat} {L : List α} :
    (L.map f).sum ≠ 0 ↔ ∃ x ∈ L, f x ≠ 0 := by
  induction L with
  | nil => simp
  | cons a L ih =>
    rw [List.map_cons, List.sum_cons]
    constructor
    · intro h
      by_cases ha : f a = 0
      · obtain ⟨x, hx, h'⟩ := ih.mp (by omega)
        exact ⟨x, List.mem_cons_of_mem _ hx, h'⟩
      · exact ⟨a, List.mem_cons_self, ha⟩
    · rintro ⟨x, hx, h⟩
      rcases List.mem_cons.mp hx with rfl | hx
      · omega
      · have := ih.mpr ⟨x, hx, h⟩
        omega

theorem slices_le_integers (b : Nat) : slicesWith xs b ≤ integersWith xs b := by
  unfold slicesWith integersWith slicesOf
  rw [List.filter_filter]
  generalize hL : List.filter _ _ = L
  have h : ∀ i ∈ L, sliceCard xs i ≠ 0 := by
    intro i hi
    rw [← hL] at hi
    simp only [List.mem_filter, Bool.and_eq_true, decide_eq_true_eq] at hi
    exact hi.2.2
  clear hL
  induction L with
  | nil => simp
  | cons a L ih =>
    have h1 := h a List.mem_cons_self
    have h2 := ih (fun i hi => h i (List.mem_cons_of_mem _ hi))
    rw [List.map_cons, List.sum_cons, List.length_cons]
    omega

theorem lists_sum_le {f g : List Nat → Nat} {L : List (List Nat)} (h : ∀ x ∈ L, f x ≤ g x) :
    (L.map f).sum ≤ (L.map g).sum := by
  induction L with
  | nil => simp
  | cons a L ih =>
    have h1 := h a List.mem_cons_self
    have h2 := ih (fun i hi => h i (List.mem_cons_of_mem _ hi))
    rw [List.map_cons, List.sum_cons, List.map_cons, List.sum_cons]
    omega

/-- printing, in terms of the histograms -/
theorem print_spec {nb ni : Nat → Nat} (hnb : ∀ b, b ≤ 256 → st.num_blocks_in_chunks[b]? = some (nb b))
    (hni : ∀ b, b ≤ 256 → st.num_integers[b]? = some (ni b)) (hle : ∀ b, nb b ≤ ni b) :
    ((∀ b, 1 ≤ b → b ≤ 256 → nb b ≠ 0) → ∃ r, st.print log = .ok r ∧ r.length = 256 ∧
      ∀ b, 1 ≤ b → b ≤ 256 → (r[b - 1]?).map (·.1) = some (ni b / nb b)) ∧
    (∀ b, 1 ≤ b → b ≤ 256 → nb b = 0 → st.print log = .error .ub) := by
  have step : ∀ j (s : List (Nat × Nat)), j ≤ 256 → nb j ≠ 0 → ∃ ef,
      (do
        let n ← rdv st.num_integers j
        let d ← rdv st.num_blocks_in_chunks j
        let avg ← ratio64 n d
        let ef ← elias_fano_bitsize log avg chunk_size
        return s ++ [(avg, ef)] : Res (List (Nat × Nat))) = .ok (s ++ [(ni j / nb j, ef)]) := by
    intro j s hj hz
    rw [rdv_of (hni j hj), ok_bind, rdv_of (hnb j hj), ok_bind]
    unfold ratio64
    rw [if_neg hz, ok_bind]
    unfold elias_fano_bitsize
    have : ni j / nb j ≠ 0 := by
      have := Nat.div_le_div_right (c := nb j) (hle j)
      rw [Nat.div_self (by omega)] at this
      omega
    rw [if_neg this]
    exact ⟨_, rfl⟩
  constructor
  · intro hz
    obtain ⟨r, e, hl, h⟩ := forRange_spec
      (fun i (s : List (Nat × Nat)) => s.length + 1 = i ∧ ∀ b, 1 ≤ b → b < i →
        (s[b - 1]?).map (·.1) = some (ni b / nb b)) 256 1 []
      ⟨rfl, fun b h1 h2 => by omega⟩ (body := fun i (s : List (Nat × Nat)) => do
        let n ← rdv st.num_integers i
        let d ← rdv st.num_blocks_in_chunks i
        let avg ← ratio64 n d
        let ef ← elias_fano_bitsize log avg chunk_size
        return s ++ [(avg, ef)]) (by
        rintro j s h1 h2 ⟨hl, h⟩
        obtain ⟨ef, e⟩ := step j s (by omega) (hz j h1 (by omega))
        refine ⟨_, e, by rw [List.length_append, List.length_singleton]; omega, ?_⟩
        intro b hb1 hb2
        rcases Nat.lt_or_ge b j with hb | hb
        · rw [List.getElem?_append_left (by omega)]
          exact h b hb1 hb
        · obtain rfl : b = j := by omega
          rw [List.getElem?_append_right (by omega), show b - 1 - s.length = 0 by omega]
          rfl)
    exact ⟨r, e, by omega, fun b h1 h2 => h b h1 (by omega)⟩
  · intro b h1 h2 hb
    -- the first entry that is zero
    have first : ∀ k, ∀ b, 1 ≤ b → b ≤ k → nb b = 0 →
        ∃ c, 1 ≤ c ∧ c ≤ b ∧ nb c = 0 ∧ ∀ j, 1 ≤ j → j < c → nb j ≠ 0 := by
      intro k
      induction k with
      | zero => intro b h1 h2; omega
      | succ k ih =>
        intro b h1 h2 hb
        by_cases hex : ∃ j, 1 ≤ j ∧ j < b ∧ nb j = 0
        · obtain ⟨j, j1, j2, j3⟩ := hex
          obtain ⟨c, c1, c2, c3, c4⟩ := ih j j1 (by omega) j3
          exact ⟨c, c1, by omega, c3, c4⟩
        · exact ⟨b, h1, Nat.le_refl _, hb, fun j j1 j2 j3 => hex ⟨j, j1, j2, j3⟩⟩
    obtain ⟨c, c1, c2, c3, c4⟩ := first b b h1 (Nat.le_refl _) hb
    refine forRange_err (fun _ _ => True) c 256 1 [] trivial c1 (by omega) ?_ ?_
    · intro j s j1 j2 _
      obtain ⟨ef, e⟩ := step j s (by omega) (c4 j j1 j2)
      exact ⟨_, e, trivial⟩
    · intro s _
      rw [rdv_of (hni c (by omega)), ok_bind, rdv_of (hnb c (by omega)), ok_bind]
      unfold ratio64
      rw [if_pos c3]; rfl

/-- C46: printing the statistics of a collection is defined if for each `b` in `1..256` there is a
slice that is stored as `b` blocks, and then the averages are printed; it is undefined otherwise. -/
theorem C46_print (hg : GoodCollection params univ lists)
    (hb : build_index dbg params (collection univ lists) = .ok (offs, seqs, st)) :
    ((∀ b, 1 ≤ b → b ≤ 256 → HasSliceWith (keptLists params lists) b) →
      ∃ r, st.print log = .ok r ∧ r.length = 256 ∧
        ∀ b, 1 ≤ b → b ≤ 256 → (r[b - 1]?).map (·.1)
          = some (((keptLists params lists).map (integersWith · b)).sum
              / ((keptLists params lists).map (slicesWith · b)).sum)) ∧
    (∀ b, 1 ≤ b → b ≤ 256 → ¬ HasSliceWith (keptLists params lists) b → st.print log = .error .ub) := by
  obtain ⟨h1, h2, -⟩ := C36_collection hg hb
  have key := print_spec (log := log) h1 h2 (fun b => lists_sum_le (fun _ _ => slices_le_integers b))
  have hz : ∀ b, ((keptLists params lists).map (slicesWith · b)).sum ≠ 0 ↔
      HasSliceWith (keptLists params lists) b := by
    intro b
    rw [sum_ne_zero_iff]
    unfold HasSliceWith
    constructor
    · rintro ⟨x, hx, h⟩
      exact ⟨x, hx, (slicesWith_pos (keptLists_valid hg x hx) b).mp h⟩
    · rintro ⟨x, hx, h⟩
      exact ⟨x, hx, (slicesWith_pos (keptLists_valid hg x hx) b).mpr h⟩
  refine ⟨fun h => key.1 (fun b b1 b2 => (hz b).mpr (h b b1 b2)), fun b b1 b2 h => ?_⟩
  refine key.2 b b1 b2 ?_
  have := mt (hz b).mp h
  omega

/-- C46, for one list (example.cpp) -/
theorem C46_print_sequence (hv : Valid xs) (hb : build_sequence dbg xs [] = .ok (st, bytes)) :
    ((∀ b, 1 ≤ b → b ≤ 256 → HasSliceWith [xs] b) → ∃ r, st.print log = .ok r ∧ r.length = 256) ∧
    (∀ b, 1 ≤ b → b ≤ 256 → ¬ HasSliceWith [xs] b → st.print log = .error .ub) := by
  obtain ⟨h1, h2, -⟩ := C36_histograms hv hb
  have key := print_spec (log := log) h1 h2 (fun b => slices_le_integers b)
  have hz : ∀ b, slicesWith xs b ≠ 0 ↔ HasSliceWith [xs] b := by
    intro b
    rw [slicesWith_pos hv]
    simp [HasSliceWith]
  refine ⟨fun h => ?_, fun b b1 b2 h => ?_⟩
  · obtain ⟨r, e, l, -⟩ := key.1 (fun b b1 b2 => (hz b).mpr (h b b1 b2))
    exact ⟨r, e, l⟩
  · refine key.2 b b1 b2 ?_
    have := mt (hz b).mp h
    omega

/-- at most `k` values, fewer than 256 of them in `1..256`: one is missing -/
theorem missing (n : Nat) : ∀ (f : Nat → Nat), ∃ b, 1 ≤ b ∧ b ≤ n + 1 ∧ ∀ i, i < n → f i ≠ b := by
  intro f
  induction n with
  | zero => exact ⟨1, Nat.le_refl _, Nat.le_refl _, fun i hi => by omega⟩
  | succ n ih =>
    -- pigeonhole through lists
    by_cases hex : ∃ b, 1 ≤ b ∧ b ≤ n + 2 ∧ ∀ i, i < n + 1 → f i ≠ b
    · exact hex
    · exfalso
      have hall : ∀ b, 1 ≤ b → b ≤ n + 2 → ∃ i, i < n + 1 ∧ f i = b := by
        intro b b1 b2
        apply Classical.byContradiction
        intro hn
        exact hex ⟨b, b1, b2, fun i hi e => hn ⟨i, hi, e⟩⟩
      have hsub : List.range' 1 (n + 2) ⊆ (List.range (n + 1)).map f := by
        intro b hb
        rw [List.mem_range'_1] at hb
        obtain ⟨i, hi, e⟩ := hall b hb.1 (by omega)
        exact List.mem_map.mpr ⟨i, List.mem_range.mpr hi, e⟩
      have := (List.nodup_range' (s := 1) (n := n + 2)).length_le_of_subset hsub
      simp only [List.length_range', List.length_map, List.length_range] at this
      omega

/-- C46: a list with all elements below 255 * 65536 cannot be printed: at most 255 slices cannot have
256 different numbers of blocks. -/
theorem C46_few_slices (hv : Valid xs) (hlt : ∀ x ∈ xs, x < 16711680)
    (hb : build_sequence dbg xs [] = .ok (st, bytes)) : st.print log = .error .ub := by
  obtain ⟨b, b1, b2, h⟩ := missing 255 (sliceBlocks xs)
  refine (C46_print_sequence hv hb).2 b b1 b2 ?_
  rintro ⟨ys, hy, i, h1, -, h3⟩
  rw [List.mem_singleton] at hy
  subst hy
  obtain ⟨x, hx, hxi⟩ := sliceCard_pos h1
  have := hlt x hx
  exact h i (by omega) h3

/-- `k` blocks with one element each -/
def stairs (k : Nat) : List Nat := (List.range k).map (256 * ·)

theorem stairs_valid {k : Nat} (h : 1 ≤ k) (hk : k ≤ 256) : Valid (stairs k) := by
  refine ⟨?_, ?_, ?_⟩
  · unfold stairs
    rw [ne_eq, List.map_eq_nil_iff, List.range_eq_nil]
    omega
  · unfold stairs
    rw [List.pairwise_map]
    exact List.pairwise_lt_range.imp (fun h => by omega)
  · intro x hx
    obtain ⟨i, hi, rfl⟩ := List.mem_map.mp hx
    rw [List.mem_range] at hi
    omega

theorem stairs_blockCard (k b : Nat) : blockCard (stairs k) b = if b < k then 1 else 0 := by
  unfold blockCard stairs
  induction k with
  | zero => simp
  | succ k ih =>
    rw [List.range_succ, List.map_append, List.filter_append, List.length_append, ih]
    by_cases h : b = k
    · subst h; simp
    · have : ¬ k = b := fun e => h e.symm
      by_cases h2 : b < k
      · have : b < k + 1 := by omega
        simp [*]
      · have : ¬ b < k + 1 := by omega
        simp [*]

theorem stairs_slice {k : Nat} (h : 1 ≤ k) (hk : k ≤ 256) : sliceCard (stairs k) 0 ≠ 0 ∧
    sparseSlice (stairs k) 0 = true ∧ sliceBlocks (stairs k) 0 = k := by
  have hc : sliceCard (stairs k) 0 ≤ k := by
    have : sliceCard (stairs k) 0 ≤ (stairs k).length := List.length_filter_le _ _
    unfold stairs at this ⊢
    simpa using this
  refine ⟨?_, ?_, ?_⟩
  · unfold sliceCard
    refine Nat.ne_of_gt (List.length_pos_of_mem (a := 0) ?_)
    unfold stairs
    rw [List.mem_filter]
    exact ⟨List.mem_map.mpr ⟨0, List.mem_range.mpr (by omega), rfl⟩, rfl⟩
  · have h2 : sparseCost (stairs k) 0 ≤ 256 * 3 := by
      unfold sparseCost
      have : ∀ L : List Nat, (∀ y ∈ L, y ≤ 3) → L.sum ≤ L.length * 3 := by
        intro L
        induction L with
        | nil => simp
        | cons y L ih =>
          intro hL
          have h1 := hL y List.mem_cons_self
          have h2 := ih (fun z hz => hL z (List.mem_cons_of_mem _ hz))
          rw [List.sum_cons, List.length_cons]
          omega
      refine Nat.le_trans (this _ ?_) (by rw [List.length_map, List.length_range]; omega)
      intro y hy
      obtain ⟨b, -, rfl⟩ := List.mem_map.mp hy
      rw [stairs_blockCard]
      split <;> decide
    unfold sparseSlice
    rw [decide_eq_true_eq]
    omega
  · unfold sliceBlocks
    have : ∀ n, ((List.range n).filter
        (fun b => decide (blockCard (stairs k) (256 * 0 + b) ≠ 0))).length = min n k := by
      intro n
      induction n with
      | zero => simp
      | succ n ih =>
        rw [List.range_succ, List.filter_append, List.length_append, ih,
          List.filter_cons, List.filter_nil, Nat.mul_zero, Nat.zero_add, stairs_blockCard]
        by_cases hn : n < k
        · rw [if_pos hn]; simp; omega
        · rw [if_neg hn]; simp; omega
    rw [this]
    omega

/-- there are collections that can be printed: the lists `stairs 1`, …, `stairs 256` -/
example : ∃ params univ lists offs seqs st r, GoodCollection params univ lists ∧
    build_index true params (collection univ lists) = .ok (offs, seqs, st) ∧
    st.print (fun _ _ => 0) = .ok r ∧ r.length = 256 := by
  have hmem : ∀ xs ∈ (List.range' 1 256).map stairs, ∃ k, 1 ≤ k ∧ k ≤ 256 ∧ xs = stairs k := by
    intro xs hx
    obtain ⟨k, hk, rfl⟩ := List.mem_map.mp hx
    rw [List.mem_range'_1] at hk
    exact ⟨k, hk.1, by omega, rfl⟩
  have hg : GoodCollection {} 65536 ((List.range' 1 256).map stairs) := by
    refine ⟨by omega, ?_, ?_⟩
    · intro xs hx
      obtain ⟨k, k1, k2, rfl⟩ := hmem xs hx
      unfold stairs
      rw [List.length_map, List.length_range]
      omega
    · intro xs hx _
      obtain ⟨k, k1, k2, rfl⟩ := hmem xs hx
      exact stairs_valid k1 k2
  obtain ⟨st, e, -⟩ := build_index_spec (dbg := true) hg
  obtain ⟨r, e', l, -⟩ := (C46_print (log := fun _ _ => 0) hg e).1 (by
    intro b b1 b2
    refine ⟨stairs b, ?_, 0, stairs_slice b1 b2⟩
    rw [C19_default_collection rfl, List.mem_filter]
    refine ⟨List.mem_map.mpr ⟨b, by rw [List.mem_range'_1]; omega, rfl⟩, ?_⟩
    have := (stairs_valid b1 b2).1
    cases h : stairs b with
    | nil => exact absurd h this
    | cons => rfl)
  exact ⟨_, _, _, _, _, st, r, hg, e, e', l⟩

example : ∃ st bytes, build_sequence true [3, 5, 300, 70000] [] = .ok (st, bytes) ∧
    st.print (fun _ _ => 0) = .error .ub := by
  obtain ⟨st, bytes, hb, -⟩ := stored_total true small_valid
  exact ⟨st, bytes, hb, C46_few_slices small_valid (by simp) hb⟩

end Sliced
