import Verif.Props.Counters
import Verif.Props.Cost
/-! # Counting the bytes of an encoding slice by slice -/
namespace Sliced

theorem sum_filter_map {p : Nat → Bool} {f : Nat → Nat} (L : List Nat) :
    ((L.filter p).map f).sum = (L.map (fun i => if p i = true then f i else 0)).sum := by
  induction L with
  | nil => rfl
  | cons a L ih =>
    rw [List.filter_cons]
    by_cases h : p a = true
    · rw [if_pos h, List.map_cons, List.sum_cons, List.map_cons, List.sum_cons, if_pos h, ih]
    · rw [if_neg h, List.map_cons, List.sum_cons, if_neg h, ih, Nat.zero_add]

theorem length_filter_sum {p : Nat → Bool} (L : List Nat) :
    (L.filter p).length = (L.map (fun i => if p i = true then 1 else 0)).sum := by
  induction L with
  | nil => rfl
  | cons a L ih =>
    rw [List.filter_cons]
    by_cases h : p a = true
    · rw [if_pos h, List.length_cons, List.map_cons, List.sum_cons, if_pos h, ih, Nat.add_comm]
    · rw [if_neg h, List.map_cons, List.sum_cons, if_neg h, ih, Nat.zero_add]

theorem sum_add_le {L : List Nat} {f g h : Nat → Nat} (H : ∀ i ∈ L, f i ≤ g i + h i) :
    (L.map f).sum ≤ (L.map g).sum + (L.map h).sum := by
  induction L with
  | nil => simp
  | cons a L ih =>
    have h1 := H a (by simp)
    have h2 := ih (fun i hi => H i (by simp [hi]))
    simp only [List.map_cons, List.sum_cons]; omega

theorem sum_mul_le {L : List Nat} {f g : Nat → Nat} {a b : Nat} (H : ∀ i ∈ L, a * f i ≤ b * g i) :
    a * (L.map f).sum ≤ b * (L.map g).sum := by
  induction L with
  | nil => simp
  | cons c L ih =>
    have h1 := H c (by simp)
    have h2 := ih (fun i hi => H i (by simp [hi]))
    simp only [List.map_cons, List.sum_cons, Nat.mul_add]; omega

/-- two sums that differ in one term -/
theorem sum_range_upd {f g : Nat → Nat} {k n : Nat} (hk : k < n)
    (h : ∀ j, j < n → j ≠ k → f j = g j) :
    ((List.range n).map f).sum + g k = ((List.range n).map g).sum + f k := by
  induction n with
  | zero => omega
  | succ n ih =>
    simp only [List.range_succ, List.map_append, List.sum_append, List.map_cons, List.map_nil,
      List.sum_cons, List.sum_nil, Nat.add_zero]
    by_cases he : k = n
    · subst he
      have : (List.range k).map f = (List.range k).map g :=
        List.map_congr_left (fun j hj => by
          have := List.mem_range.mp hj
          exact h j (by omega) (by omega))
      rw [this]; omega
    · have h1 := ih (by omega) (fun j hj => h j (by omega))
      have h2 := h n (by omega) (fun e => he e.symm)
      omega

/-- bytes of slice `i` with its header -/
def sliceTotal (xs : List Nat) (i : Nat) : Nat := if sliceCard xs i = 0 then 0 else 8 + sliceBytes xs i
/-- 1 if there is an element in slice `i` -/
def sliceInd (xs : List Nat) (i : Nat) : Nat := if sliceCard xs i = 0 then 0 else 1

theorem slices_sum (xs : List Nat) :
    (slicesOf xs).length = ((List.range 65535).map (sliceInd xs)).sum := by
  unfold slicesOf
  generalize 65535 = n
  rw [length_filter_sum]
  congr 1
  refine List.map_congr_left (fun i _ => ?_)
  unfold sliceInd
  by_cases h : sliceCard xs i = 0
  · rw [if_neg (by simp [h]), if_pos h]
  · rw [if_pos (by simp [h]), if_neg h]

theorem encodedSize_sum (xs : List Nat) :
    encodedSize xs = 2 + 8 * ((slicesOf xs).length / 32)
      + ((List.range 65535).map (sliceTotal xs)).sum := by
  have key : ∀ n, (((List.range n).filter (fun i => decide (sliceCard xs i ≠ 0))).map
      (fun i => 8 + sliceBytes xs i)).sum = ((List.range n).map (sliceTotal xs)).sum := by
    intro n
    rw [sum_filter_map]
    congr 1
    refine List.map_congr_left (fun i _ => ?_)
    unfold sliceTotal
    by_cases h : sliceCard xs i = 0
    · rw [if_neg (by simp [h]), if_pos h]
    · rw [if_pos (by simp [h]), if_neg h]
  unfold encodedSize
  rw [← key 65535]
  rfl

theorem length_filter_between (L : List Nat) (a k : Nat) :
    (L.filter (fun x => decide (a ≤ x / 256 ∧ x / 256 < a + (k + 1)))).length
      = (L.filter (fun x => decide (a ≤ x / 256 ∧ x / 256 < a + k))).length
        + (L.filter (fun x => x / 256 == a + k)).length := by
  induction L with
  | nil => rfl
  | cons x L ih =>
    simp only [List.filter_cons]
    by_cases h1 : a ≤ x / 256 ∧ x / 256 < a + k
    · rw [if_pos (by simp; omega), if_pos (by simpa using h1), if_neg (by simp; omega)]
      simp only [List.length_cons]; omega
    · by_cases h2 : x / 256 = a + k
      · rw [if_pos (by simp; omega), if_neg (by simpa using h1), if_pos (by simpa using h2)]
        simp only [List.length_cons]; omega
      · rw [if_neg (by simp; omega), if_neg (by simpa using h1), if_neg (by simpa using h2)]
        exact ih

/-- the elements of a slice are those of its blocks -/
theorem sum_blockCard (xs : List Nat) (i : Nat) :
    ((List.range 256).map (fun b => blockCard xs (256 * i + b))).sum = sliceCard xs i := by
  have h : ∀ k, ((List.range k).map (fun b => blockCard xs (256 * i + b))).sum
      = (xs.filter (fun x => decide (256 * i ≤ x / 256 ∧ x / 256 < 256 * i + k))).length := by
    intro k
    induction k with
    | zero =>
      rw [List.filter_eq_nil_iff.mpr]
      · rfl
      · intro x _ hx
        rw [decide_eq_true_eq] at hx
        omega
    | succ k ih =>
      rw [List.range_succ, List.map_append, List.sum_append, ih, length_filter_between]
      simp only [List.map_cons, List.map_nil, List.sum_cons, List.sum_nil, Nat.add_zero]
      rfl
  rw [h]
  unfold sliceCard
  congr 1
  refine List.filter_congr (fun x _ => ?_)
  rw [Bool.eq_iff_iff]
  simp only [decide_eq_true_eq, beq_iff_eq]
  omega

theorem blockCard_le {xs : List Nat} (hv : Valid xs) (i : Nat) {b : Nat} (hb : b < 256) :
    blockCard xs (256 * i + b) ≤ 256 :=
  blockCards_le hv i _ (List.mem_map.mpr ⟨b, List.mem_range.mpr hb, rfl⟩)

theorem sliceCard_le {xs : List Nat} (hv : Valid xs) (i : Nat) : sliceCard xs i ≤ 65536 := by
  rw [← sum_blockCard]
  have := sum_le_of (L := List.range 256) (f := fun b => blockCard xs (256 * i + b)) (k := 256)
    (fun b hb => blockCard_le hv i (List.mem_range.mp hb))
  rw [List.length_range] at this
  omega

theorem sparseCost_ge {xs : List Nat} (hv : Valid xs) (i : Nat) :
    34 * sliceCard xs i ≤ 256 * sparseCost xs i := by
  rw [← sum_blockCard]
  unfold sparseCost
  refine sum_mul_le (fun b hb => ?_)
  have := blockCard_le hv i (List.mem_range.mp hb)
  unfold blockCost
  split
  · omega
  · split <;> omega

/-! ## The counts of lists that are made from others -/

theorem filter_sub {xs zs : List Nat} {p : Nat → Bool} (hx : xs.Pairwise (· < ·))
    (hz : zs.Pairwise (· < ·)) (h : ∀ v ∈ zs, v ∈ xs) :
    (zs.filter p).length ≤ (xs.filter p).length := by
  have : zs.filter p = (xs.filter p).filter (fun v => decide (v ∈ zs)) := by
    apply sorted_ext (hz.filter _) ((hx.filter _).filter _)
    intro v
    simp only [List.mem_filter, decide_eq_true_eq]
    exact ⟨fun ⟨a, b⟩ => ⟨⟨h v a, b⟩, a⟩, fun ⟨⟨_, b⟩, c⟩ => ⟨c, b⟩⟩
  rw [this]
  exact List.length_filter_le _ _

theorem length_filter_split (L : List Nat) (p q : Nat → Bool) :
    (L.filter p).length = ((L.filter p).filter q).length
      + ((L.filter p).filter (fun x => !q x)).length := by
  induction L with
  | nil => rfl
  | cons a L ih =>
    simp only [List.filter_cons]
    by_cases hp : p a = true
    · rw [if_pos hp]
      simp only [List.filter_cons, List.length_cons]
      by_cases hq : q a = true
      · simp only [hq, if_true, List.length_cons, Bool.not_true, Bool.false_eq_true, if_false]
        omega
      · simp only [hq, Bool.false_eq_true, if_false, List.length_cons, Bool.not_false, if_true]
        omega
    · rw [if_neg hp]; exact ih

theorem filter_union {xs ys zs : List Nat} {p : Nat → Bool} (hx : xs.Pairwise (· < ·))
    (hy : ys.Pairwise (· < ·)) (hz : zs.Pairwise (· < ·)) (h : ∀ v, v ∈ zs ↔ v ∈ xs ∨ v ∈ ys) :
    (zs.filter p).length ≤ (xs.filter p).length + (ys.filter p).length ∧
    (xs.filter p).length ≤ (zs.filter p).length ∧ (ys.filter p).length ≤ (zs.filter p).length := by
  refine ⟨?_, filter_sub hz hx (fun v hv => (h v).mpr (Or.inl hv)),
    filter_sub hz hy (fun v hv => (h v).mpr (Or.inr hv))⟩
  rw [length_filter_split zs p (fun v => decide (v ∈ xs))]
  refine Nat.add_le_add ?_ ?_
  · have : (zs.filter p).filter (fun v => decide (v ∈ xs)) = xs.filter p := by
      apply sorted_ext ((hz.filter _).filter _) (hx.filter _)
      intro v
      simp only [List.mem_filter, decide_eq_true_eq]
      exact ⟨fun ⟨⟨_, b⟩, c⟩ => ⟨c, b⟩, fun ⟨a, b⟩ => ⟨⟨(h v).mpr (Or.inl a), b⟩, a⟩⟩
    rw [this]
    exact Nat.le_refl _
  · have : (zs.filter p).filter (fun v => !decide (v ∈ xs))
        = (ys.filter p).filter (fun v => !decide (v ∈ xs)) := by
      apply sorted_ext ((hz.filter _).filter _) ((hy.filter _).filter _)
      intro v
      simp only [List.mem_filter, Bool.not_eq_true', decide_eq_false_iff_not]
      constructor
      · rintro ⟨⟨a, b⟩, c⟩
        rcases (h v).mp a with a | a
        · exact absurd a c
        · exact ⟨⟨a, b⟩, c⟩
      · rintro ⟨⟨a, b⟩, c⟩
        exact ⟨⟨(h v).mpr (Or.inr a), b⟩, c⟩
    rw [this]
    exact List.length_filter_le _ _

theorem filter_insert {xs zs : List Nat} {p : Nat → Bool} {x : Nat} (hx : xs.Pairwise (· < ·))
    (hz : zs.Pairwise (· < ·)) (hn : x ∉ xs) (h : ∀ v, v ∈ zs ↔ v = x ∨ v ∈ xs) :
    (zs.filter p).length = (xs.filter p).length + (if p x = true then 1 else 0) := by
  rw [length_filter_split zs p (fun v => decide (v ∈ xs))]
  congr 1
  · congr 1
    apply sorted_ext ((hz.filter _).filter _) (hx.filter _)
    intro v
    simp only [List.mem_filter, decide_eq_true_eq]
    exact ⟨fun ⟨⟨_, b⟩, c⟩ => ⟨c, b⟩, fun ⟨a, b⟩ => ⟨⟨(h v).mpr (Or.inr a), b⟩, a⟩⟩
  · have : (zs.filter p).filter (fun v => !decide (v ∈ xs)) = if p x = true then [x] else [] := by
      apply sorted_ext ((hz.filter _).filter _)
      · split <;> simp
      · intro v
        simp only [List.mem_filter, Bool.not_eq_true', decide_eq_false_iff_not]
        by_cases hp : p x = true
        · rw [if_pos hp]
          simp only [List.mem_singleton]
          constructor
          · rintro ⟨⟨a, b⟩, c⟩
            rcases (h v).mp a with a | a
            · exact a
            · exact absurd a c
          · rintro rfl
            exact ⟨⟨(h v).mpr (Or.inl rfl), hp⟩, hn⟩
        · rw [if_neg hp]
          simp only [List.not_mem_nil, iff_false]
          rintro ⟨⟨a, b⟩, c⟩
          rcases (h v).mp a with a | a
          · subst a; exact hp b
          · exact c a
    rw [this]
    split <;> rfl

end Sliced
