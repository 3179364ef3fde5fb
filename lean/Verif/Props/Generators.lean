import Verif.Model.Generators
import Verif.Props.ToolsRoom
/-!
# C47: the data generators; C48: the query generators
-/
namespace Sliced

variable {pad : Nat}
variable {dbg dbg' : Bool} {params : Params} {univ a : Nat} {lists : List (List Nat)} {m : Mem}
  {sort : List Nat → List Nat}

/-- what `std::sort` guarantees -/
def SortNat (sort : List Nat → List Nat) : Prop :=
  ∀ l, (sort l).Perm l ∧ (sort l).Pairwise (· ≤ ·)

/-- insertion into a sorted list -/
def insertSorted (x : Nat) : List Nat → List Nat
  | [] => [x]
  | y :: l => if x ≤ y then x :: y :: l else y :: insertSorted x l

/-- insertion sort: there are functions with this property -/
def insSort : List Nat → List Nat
  | [] => []
  | x :: l => insertSorted x (insSort l)

theorem insertSorted_perm (x : Nat) : ∀ l, (insertSorted x l).Perm (x :: l)
  | [] => List.Perm.refl _
  | y :: l => by
    unfold insertSorted
    split
    · exact List.Perm.refl _
    · exact ((insertSorted_perm x l).cons y).trans (List.Perm.swap x y l)

theorem insertSorted_sorted (x : Nat) : ∀ {l : List Nat}, l.Pairwise (· ≤ ·) →
    (insertSorted x l).Pairwise (· ≤ ·)
  | [], _ => by simp [insertSorted]
  | y :: l, h => by
    unfold insertSorted
    rw [List.pairwise_cons] at h
    split
    · rename_i hxy
      rw [List.pairwise_cons, List.pairwise_cons]
      refine ⟨fun z hz => ?_, h⟩
      rcases List.mem_cons.mp hz with rfl | hz
      · exact hxy
      · exact Nat.le_trans hxy (h.1 z hz)
    · rename_i hxy
      rw [List.pairwise_cons]
      refine ⟨fun z hz => ?_, insertSorted_sorted x h.2⟩
      rcases List.mem_cons.mp ((insertSorted_perm x l).mem_iff.mp hz) with rfl | hz
      · omega
      · exact h.1 z hz

theorem sortNat_insSort : SortNat insSort := by
  intro l
  induction l with
  | nil => exact ⟨List.Perm.refl _, List.Pairwise.nil⟩
  | cons x l ih =>
    exact ⟨(insertSorted_perm x _).trans (ih.1.cons x), insertSorted_sorted x ih.2⟩

theorem mem_unique {v : Nat} : ∀ {l : List Nat}, v ∈ unique l ↔ v ∈ l
  | [] => Iff.rfl
  | [x] => Iff.rfl
  | x :: y :: l => by
    unfold unique
    have ih := mem_unique (v := v) (l := y :: l)
    by_cases h : x = y
    · rw [if_pos h, ih]
      subst h
      simp
    · rw [if_neg h, List.mem_cons, ih]
      exact List.mem_cons.symm

theorem unique_sorted : ∀ {l : List Nat}, l.Pairwise (· ≤ ·) → (unique l).Pairwise (· < ·)
  | [], _ => List.Pairwise.nil
  | [x], _ => by simp [unique]
  | x :: y :: l, h => by
    unfold unique
    rw [List.pairwise_cons] at h
    have ih := unique_sorted (l := y :: l) h.2
    by_cases hxy : x = y
    · rw [if_pos hxy]; exact ih
    · rw [if_neg hxy, List.pairwise_cons]
      refine ⟨?_, ih⟩
      intro z hz
      rw [mem_unique] at hz
      have h1 := h.1 y List.mem_cons_self
      rcases List.mem_cons.mp hz with rfl | hz
      · omega
      · have := (List.pairwise_cons.mp h.2).1 z hz
        omega

/-- a list as a generator writes it -/
theorem generated_spec (hsort : SortNat sort) (l : List Nat) :
    (unique (sort l)).Pairwise (· < ·) ∧ ∀ v, v ∈ unique (sort l) ↔ v ∈ l :=
  ⟨unique_sorted (hsort l).2, fun v => by rw [mem_unique, (hsort l).1.mem_iff]⟩

theorem write_list_of {l : List Nat} (h : l.length < 4294967296) : write_list l = l.length :: l := by
  unfold write_list
  rw [u32_lt h]

/-- the words written for lists of generated elements are a good collection -/
theorem generated_good (hsort : SortNat sort) (hu : univ < 4294901760) {raw : List (List Nat)}
    (hr : ∀ l ∈ raw, ∀ x ∈ l, x ≤ univ) :
    1 :: univ :: raw.flatMap (fun l => write_list (unique (sort l)))
      = collection univ (raw.map (fun l => unique (sort l))) ∧
    GoodCollection params univ (raw.map (fun l => unique (sort l))) := by
  have key : ∀ l ∈ raw, (unique (sort l)).length < 4294901761 := by
    intro l hl
    have h := generated_spec hsort l
    have := sorted_length_le' (n := univ + 1) h.1 (fun x hx => by
      have := hr l hl x ((h.2 x).mp hx)
      omega)
    omega
  constructor
  · unfold collection
    congr 2
    rw [List.flatMap_map]
    clear hr
    induction raw with
    | nil => rfl
    | cons l raw ih =>
      rw [List.flatMap_cons, List.flatMap_cons, ih (fun l hl => key l (List.mem_cons_of_mem _ hl)),
        write_list_of (by have := key l List.mem_cons_self; omega)]
  · refine ⟨by omega, ?_, ?_⟩
    · intro xs hx
      obtain ⟨l, hl, rfl⟩ := List.mem_map.mp hx
      have := key l hl
      omega
    · intro xs hx hk
      obtain ⟨l, hl, rfl⟩ := List.mem_map.mp hx
      have h := generated_spec hsort l
      refine ⟨hk.1, h.1, ?_⟩
      intro x hx
      have := hr l hl x ((h.2 x).mp hx)
      omega

/-- C47: `gen_uniform_data` with a universe below 4294901760 writes a good collection: list `i` is
the strictly increasing list of the elements drawn for it. -/
theorem C47_uniform (hsort : SortNat sort) (hu : univ < 4294901760) {num : Nat} {length : Nat → Nat}
    {element : Nat → Nat → Nat} (he : ∀ i k, element i k ≤ univ) :
    ∃ lists, gen_uniform sort num univ length element = collection univ lists ∧
      GoodCollection params univ lists ∧ lists.length = num ∧
      ∀ i xs, lists[i]? = some xs → xs.Pairwise (· < ·) ∧
        ∀ v, v ∈ xs ↔ ∃ k, k < length i ∧ element i k = v := by
  obtain ⟨h1, h2⟩ := generated_good (params := params) hsort hu
    (raw := (List.range num).map (fun i => (List.range (length i)).map (element i))) (by
      intro l hl x hx
      obtain ⟨i, -, rfl⟩ := List.mem_map.mp hl
      obtain ⟨k, -, rfl⟩ := List.mem_map.mp hx
      exact he i k)
  refine ⟨_, ?_, h2, by simp, ?_⟩
  · rw [← h1]
    unfold gen_uniform
    rw [List.flatMap_map]
  · intro i xs hx
    rw [List.getElem?_map, List.getElem?_map] at hx
    by_cases hi : i < num
    · rw [List.getElem?_range hi] at hx
      simp only [Option.map_some, Option.some.injEq] at hx
      subst hx
      refine ⟨(generated_spec hsort _).1, fun v => ?_⟩
      rw [(generated_spec hsort _).2 v, List.mem_map]
      simp only [List.mem_range]
    · rw [List.getElem?_eq_none (by rw [List.length_range]; omega)] at hx
      simp at hx

theorem find_self {xs : List Nat} {x : Nat} (h : xs.Pairwise (· < ·)) (hx : x ∈ xs) :
    xs.find? (fun y => decide (x ≤ y)) = some x := by
  induction xs with
  | nil => simp at hx
  | cons y ys ih =>
    rw [List.pairwise_cons] at h
    rw [List.find?_cons]
    rcases List.mem_cons.mp hx with rfl | hx
    · simp
    · have h1 := h.1 x hx
      have : ¬ x ≤ y := by omega
      simp only [this, decide_false]
      exact ih h.2 hx

/-! ## Clustered data -/

/-- `x` is put into a list: its slice is included as a whole, or `x` is drawn in some slice -/
def Chosen (univ : Nat) (code : Nat → Nat) (some_of : Nat → List Nat) (n x : Nat) : Prop :=
  ∃ j, j < n ∧ 65536 * j < univ ∧
    ((code j = 1 ∧ x / 65536 = j ∧ x < univ) ∨ (code j ≠ 0 ∧ code j ≠ 1 ∧ x ∈ some_of j))

theorem Chosen.succ {code : Nat → Nat} {some_of : Nat → List Nat} {n x : Nat} :
    Chosen univ code some_of (n + 1) x ↔ Chosen univ code some_of n x ∨ (65536 * n < univ ∧
      ((code n = 1 ∧ x / 65536 = n ∧ x < univ) ∨ (code n ≠ 0 ∧ code n ≠ 1 ∧ x ∈ some_of n))) := by
  constructor
  · rintro ⟨j, hj, h⟩
    by_cases hjn : j = n
    · subst hjn; exact Or.inr h
    · exact Or.inl ⟨j, by omega, h⟩
  · rintro (⟨j, hj, h⟩ | h)
    · exact ⟨j, by omega, h⟩
    · exact ⟨n, by omega, h⟩

theorem gen_slices_spec (hu : univ ≤ 4294901760) {code : Nat → Nat} {some_of : Nat → List Nat} :
    ∀ (fuel j : Nat) (list : List Nat), j < 65536 → univ / 65536 + 2 ≤ fuel + j →
      65536 * (j - 1) < univ ∨ j = 0 →
      (∀ x, x ∈ list ↔ Chosen univ code some_of j x) →
      ∃ list', gen_slices univ code some_of fuel j (65536 * j) (u32 (65536 * (j + 1))) list
          = .ok list' ∧ ∀ x, x ∈ list' ↔ Chosen univ code some_of 65536 x
  | 0, j, list, hj, hf, hj', h => by omega
  | f + 1, j, list, hj, hf, hj', h => by
    unfold gen_slices
    by_cases hl : 65536 * j < univ
    · rw [if_pos hl]
      have hr : u32 (65536 * (j + 1)) = 65536 * (j + 1) := u32_lt (by omega)
      simp only [hr, chunk_size]
      have e : u32 (65536 * (j + 1) + 65536) = u32 (65536 * (j + 1 + 1)) := by
        congr 1
      rw [e]
      refine gen_slices_spec hu f (j + 1) _ (by omega) (by omega) (Or.inl (by omega)) ?_
      intro x
      rw [Chosen.succ, ← h x]
      by_cases h0 : code j = 0
      · rw [if_pos h0]
        constructor
        · exact Or.inl
        · rintro (h1 | ⟨-, ⟨h1, -⟩ | ⟨h1, -⟩⟩)
          · exact h1
          · omega
          · exact absurd h0 h1
      · rw [if_neg h0]
        by_cases h1 : code j = 1
        · rw [if_pos h1, List.mem_append, List.mem_map]
          have hs : sub32 (min (65536 * (j + 1)) univ) (65536 * j)
              = min (65536 * (j + 1)) univ - 65536 * j := sub32_eq (by omega) (by omega)
          constructor
          · rintro (hx | ⟨d, hd, rfl⟩)
            · exact Or.inl hx
            · rw [List.mem_range, hs] at hd
              rw [u32_lt (by omega)]
              exact Or.inr ⟨hl, Or.inl ⟨h1, by omega, by omega⟩⟩
          · rintro (hx | ⟨-, ⟨-, hx, hxu⟩ | ⟨-, hn, -⟩⟩)
            · exact Or.inl hx
            · refine Or.inr ⟨x - 65536 * j, ?_, ?_⟩
              · rw [List.mem_range, hs]; omega
              · rw [u32_lt (by omega)]; omega
            · exact absurd h1 hn
        · rw [if_neg h1, List.mem_append]
          constructor
          · rintro (hx | hx)
            · exact Or.inl hx
            · exact Or.inr ⟨hl, Or.inr ⟨h0, h1, hx⟩⟩
          · rintro (hx | ⟨-, ⟨hn, -⟩ | ⟨-, -, hx⟩⟩)
            · exact Or.inl hx
            · exact absurd hn h1
            · exact Or.inr hx
    · rw [if_neg hl]
      refine ⟨list, rfl, fun x => (h x).trans ?_⟩
      constructor
      · rintro ⟨i, hi, h'⟩
        exact ⟨i, by omega, h'⟩
      · rintro ⟨i, hi, hlt, h'⟩
        exact ⟨i, by omega, hlt, h'⟩

theorem gen_lists_spec (hu : univ ≤ 4294901760) {code : Nat → Nat → Nat}
    {some_of : Nat → Nat → List Nat} {fuel : Nat} (hf : univ / 65536 + 2 ≤ fuel) :
    ∀ n i, ∃ raw, gen_lists univ code some_of fuel n i = .ok raw ∧ raw.length = n ∧
      ∀ j l, raw[j]? = some l → ∀ x, x ∈ l ↔ Chosen univ (code (i + j)) (some_of (i + j)) 65536 x
  | 0, _ => ⟨[], rfl, rfl, by simp⟩
  | n + 1, i => by
    obtain ⟨l, e, hl⟩ := gen_slices_spec (code := code i) (some_of := some_of i) hu fuel 0 [] (by omega)
      (by omega) (Or.inr rfl) (fun x => by
        constructor
        · simp
        · rintro ⟨j, hj, -⟩; omega)
    obtain ⟨raw, e', hraw, h⟩ := gen_lists_spec hu (code := code) (some_of := some_of) hf n (i + 1)
    refine ⟨l :: raw, ?_, by rw [List.length_cons, hraw], ?_⟩
    · unfold gen_lists
      have : gen_slices univ (code i) (some_of i) fuel 0 0 chunk_size [] = .ok l := e
      rw [this, ok_bind, e']; rfl
    · intro j l' hj x
      cases j with
      | zero =>
        rw [List.getElem?_cons_zero, Option.some.injEq] at hj
        subst hj
        exact hl x
      | succ j =>
        rw [List.getElem?_cons_succ] at hj
        have := h j l' hj x
        rwa [show i + 1 + j = i + (j + 1) by omega] at this

/-- what the random numbers drawn in slice `j` guarantee -/
def DrawsOk (univ : Nat) (some_of : Nat → Nat → List Nat) : Prop :=
  ∀ i j x, x ∈ some_of i j → 65536 * j ≤ x ∧ x ≤ min (65536 * (j + 1)) univ

/-- C47: `gen_clustered_data --binary` with a universe below 4294901760 writes a good collection:
list `i` is the strictly increasing list of the elements chosen for it. -/
theorem C47_clustered (hsort : SortNat sort) (hu : univ < 4294901760) {num : Nat}
    {code : Nat → Nat → Nat} {some_of : Nat → Nat → List Nat} (hd : DrawsOk univ some_of) :
    ∃ lists, (∃ fuel, gen_clustered sort num univ code some_of fuel = .ok (collection univ lists)) ∧
      GoodCollection params univ lists ∧ lists.length = num ∧
      ∀ i xs, lists[i]? = some xs → xs.Pairwise (· < ·) ∧
        ∀ v, v ∈ xs ↔ Chosen univ (code i) (some_of i) 65536 v := by
  obtain ⟨raw, e, hl, h⟩ := gen_lists_spec (univ := univ) (by omega) (code := code) (some_of := some_of)
    (fuel := univ / 65536 + 2) (Nat.le_refl _) num 0
  have hr : ∀ l ∈ raw, ∀ x ∈ l, x ≤ univ := by
    intro l hl x hx
    obtain ⟨j, hj⟩ := List.getElem?_of_mem hl
    obtain ⟨i, -, -, ⟨-, -, hx'⟩ | ⟨-, -, hx'⟩⟩ := (h j l hj x).mp hx
    · omega
    · have := (hd _ _ _ hx').2
      omega
  obtain ⟨h1, h2⟩ := generated_good (params := params) hsort hu hr
  refine ⟨_, ⟨univ / 65536 + 2, ?_⟩, h2, by rw [List.length_map, hl], ?_⟩
  · unfold gen_clustered
    rw [e, ok_bind, h1]; rfl
  · intro i xs hx
    rw [List.getElem?_map, Option.map_eq_some_iff] at hx
    obtain ⟨l, hl, rfl⟩ := hx
    refine ⟨(generated_spec hsort l).1, fun v => ?_⟩
    rw [(generated_spec hsort l).2 v, h i l hl v, Nat.zero_add]

/-- C47: with a universe above 4294901760 the loop over the slices never ends: after the last slice
its 32-bit bounds wrap to 0 (and the list of elements keeps growing). -/
theorem C47_clustered_endless (hu : 4294901760 < univ) (hu' : univ < 4294967296)
    {code : Nat → Nat} {some_of : Nat → List Nat} (fuel : Nat) :
    gen_slices univ code some_of fuel 0 0 chunk_size [] = .error .diverge := by
  have key : ∀ (fuel j i : Nat) (list : List Nat), i < 65536 →
      gen_slices univ code some_of fuel j (65536 * i) (u32 (65536 * (i + 1))) list
        = .error .diverge := by
    intro fuel
    induction fuel with
    | zero => intro j i list hi; rfl
    | succ f ih =>
      intro j i list hi
      unfold gen_slices
      rw [if_pos (by omega)]
      simp only [chunk_size]
      by_cases hi' : i + 1 < 65536
      · have e : u32 (65536 * (i + 1)) = 65536 * (i + 1) := u32_lt (by omega)
        rw [e]
        exact ih _ (i + 1) _ hi'
      · obtain rfl : i = 65535 := by omega
        exact ih _ 0 _ (by omega)
  exact key fuel 0 0 [] (by omega)

/-- a reader of the text format: each list is preceded by its length (as example.cpp:31-38 does for
one list) -/
def parse_text : (fuel : Nat) → List Nat → List (List Nat)
  | 0, _ => []
  | _ + 1, [] => []
  | f + 1, n :: toks => toks.take n :: parse_text f (toks.drop n)

theorem unique_length_le : ∀ l : List Nat, (unique l).length ≤ l.length
  | [] => Nat.le_refl _
  | [x] => Nat.le_refl _
  | x :: y :: l => by
    unfold unique
    have := unique_length_le (y :: l)
    by_cases h : x = y
    · rw [if_pos h]; simp only [List.length_cons] at this ⊢; omega
    · rw [if_neg h]; simp only [List.length_cons] at this ⊢; omega

/-- C47: in text mode the first list can be read back (example.cpp reads one list), whatever
`std::unique` leaves at the end of the vector. -/
theorem C47_text_first (hsort : SortNat sort) (hu : univ < 4294901760) {num : Nat} (hnum : 0 < num)
    {rest : List Nat → List Nat}
    {code : Nat → Nat → Nat} {some_of : Nat → Nat → List Nat} (hd : DrawsOk univ some_of) :
    ∃ fuel toks n xs, gen_clustered_text sort rest num univ code some_of fuel = .ok (n :: toks) ∧
      toks.take n = xs ∧ xs.length = n ∧ xs.Pairwise (· < ·) ∧
      ∀ v, v ∈ xs ↔ Chosen univ (code 0) (some_of 0) 65536 v := by
  obtain ⟨raw, e, hl, h⟩ := gen_lists_spec (univ := univ) (by omega) (code := code) (some_of := some_of)
    (fuel := univ / 65536 + 2) (Nat.le_refl _) num 0
  cases raw with
  | nil => simp at hl; omega
  | cons l raw =>
    have hmem := h 0 l rfl
    rw [Nat.zero_add] at hmem
    have hg := generated_spec hsort l
    have hlen : (unique (sort l)).length < 4294967296 := by
      have := sorted_length_le' (n := univ + 1) hg.1 (fun x hx => by
        have hx := (hmem x).mp ((hg.2 x).mp hx)
        obtain ⟨i, -, -, ⟨-, -, hx'⟩ | ⟨-, -, hx'⟩⟩ := hx
        · omega
        · have := (hd _ _ _ hx').2
          omega)
      omega
    have e' : gen_clustered_text sort rest num univ code some_of (univ / 65536 + 2)
        = .ok (u32 (unique (sort l)).length :: (unique (sort l) ++ rest (sort l)
          ++ raw.flatMap (fun list => u32 (unique (sort list)).length ::
            (unique (sort list) ++ rest (sort list))))) := by
      unfold gen_clustered_text
      rw [e, ok_bind, List.flatMap_cons]
      rfl
    refine ⟨univ / 65536 + 2, _, _, unique (sort l), e', ?_, ?_, hg.1, ?_⟩
    · rw [u32_lt hlen, List.append_assoc, List.take_left' rfl]
    · rw [u32_lt hlen]
    · intro v
      rw [hg.2 v, hmem v]

/-- the numbers drawn in the witness: `5, 5, 7` for the first list and `1, 2` for the second -/
def textDraws (i j : Nat) : List Nat := if j = 0 then (if i = 0 then [5, 5, 7] else [1, 2]) else []

theorem textDraws_ok : DrawsOk 100 textDraws := by
  intro i j x hx
  unfold textDraws at hx
  by_cases hj : j = 0
  · subst hj
    by_cases hi : i = 0
    · simp [hi] at hx; omega
    · simp [hi] at hx; omega
  · simp [hj] at hx

/-- C47: with more lists the text file cannot be read back: the vector is written with the elements
that `std::unique` left at its end.  Drawn are `5, 5, 7` and `1, 2`; read are `5, 7`, then a list
that has the left-over element for its length, whatever that element is. -/
theorem C47_text_wrong (left : Nat) : DrawsOk 100 textDraws ∧
    gen_clustered_text (fun l => l) (fun l => List.replicate (l.length - (unique l).length) left)
        2 100 (fun _ _ => 2) textDraws 2 = .ok [2, 5, 7, left, 2, 1, 2] ∧
    parse_text 10 [2, 5, 7, left, 2, 1, 2] ≠ [[5, 7], [1, 2]] := by
  refine ⟨textDraws_ok, rfl, ?_⟩
  intro h
  simp only [parse_text, List.take_succ_cons, List.take_zero, List.drop_succ_cons, List.drop_zero,
    List.cons.injEq, true_and] at h
  have h1 := h.1
  cases left with
  | zero => simp at h1
  | succ n => simp at h1

/-- 4, 4, 9 and nothing; the second list is not kept -/
example : ∃ lists, gen_uniform insSort 2 100 (fun i => if i = 0 then 3 else 0)
      (fun _ k => if k = 0 then 9 else 4) = collection 100 lists ∧
    GoodCollection {} 100 lists ∧ lists = [[4, 9], []] :=
  ⟨[[4, 9], []], by decide +kernel,
    ⟨by omega, by simp, by
      intro xs hx hk
      rcases List.mem_cons.mp hx with rfl | hx
      · exact valid_of_lt (by decide) (by decide) (by decide)
      · rw [List.mem_singleton] at hx
        subst hx
        exact absurd rfl hk.1⟩, rfl⟩

example : ∃ lists, (∃ fuel, gen_clustered insSort 2 100 (fun _ _ => 2) textDraws fuel
      = .ok (collection 100 lists)) ∧ lists = [[5, 7], [1, 2]] :=
  ⟨[[5, 7], [1, 2]], ⟨2, by
    have : (gen_clustered insSort 2 100 (fun _ _ => 2) textDraws 2).toOption
        = some (collection 100 [[5, 7], [1, 2]]) := by decide +kernel
    revert this
    cases gen_clustered insSort 2 100 (fun _ _ => 2) textDraws 2 with
    | error e => intro h; cases h
    | ok r => intro h; rw [Option.some.inj h]⟩, rfl⟩

/-! ## C48: query generators -/

/-- what the random numbers guarantee -/
def RngOk (rng : Nat → Nat → Nat → Nat) : Prop := ∀ i k hi, rng i k hi ≤ hi

/-- queries for one sequence after the other: query `i * k + j` is the `j`-th of sequence `i` -/
theorem blocks_getElem? {f : Nat → Nat → Nat} {k : Nat} : ∀ {n : Nat} {qs : List Nat},
    qs = (List.range n).flatMap (fun i => (List.range k).map (f i)) → ∀ i j, i < n → j < k →
      qs[i * k + j]? = some (f i j)
  | 0, _, _, i, j, hi, _ => by omega
  | n + 1, qs, h, i, j, hi, hj => by
    subst h
    have hlen : ∀ n, ((List.range n).flatMap (fun i => (List.range k).map (f i))).length = n * k := by
      intro n
      induction n with
      | zero => simp
      | succ n ih =>
        rw [List.range_succ, List.flatMap_append, List.length_append, ih, Nat.succ_mul]
        simp
    rw [List.range_succ, List.flatMap_append]
    by_cases hin : i = n
    · subst hin
      rw [List.getElem?_append_right (by rw [hlen]; omega), hlen, Nat.add_sub_cancel_left]
      simp [hj]
    · rw [List.getElem?_append_left (by
        rw [hlen]
        exact query_index (by omega) hj)]
      exact blocks_getElem? rfl i j (by omega) hj

theorem blocks_length {f : Nat → Nat → Nat} {k : Nat} (n : Nat) :
    ((List.range n).flatMap (fun i => (List.range k).map (f i))).length = n * k := by
  induction n with
  | zero => simp
  | succ n ih =>
    rw [List.range_succ, List.flatMap_append, List.length_append, ih, Nat.succ_mul]
    simp

theorem gen_select_spec {k : Nat} {rng : Nat → Nat → Nat → Nat} {ks : List (List Nat)} {idx : SIndex}
    (h : Indexed dbg ks univ m a idx pad) :
    gen_select_queries dbg' m a k rng = .ok ((List.range ks.length).flatMap (fun i =>
      (List.range k).map (fun j => rng i j ((ks[i]?.getD []).length - 1)))) := by
  unfold gen_select_queries
  rw [h.map]
  simp only [ok_bind, h.size]
  obtain ⟨qs, e, hq⟩ := forRange_spec (fun i qs => qs = (List.range i).flatMap (fun i =>
      (List.range k).map (fun j => rng i j ((ks[i]?.getD []).length - 1)))) ks.length 0 [] rfl
    (body := fun i queries => do
      let sequence ← idx.get dbg' m i
      let cardinality ← sequence.cardinality m
      return queries ++ (List.range k).map (fun j => rng i j (sub32 cardinality 1))) (by
      intro i qs _ hi hq
      have hx : ks[i]? = some ks[i] := List.getElem?_eq_getElem (by omega)
      have hv := h.valid _ (List.mem_of_getElem? hx)
      obtain ⟨s, b, hs, -, hst⟩ := h.get i _ hx dbg'
      have hl := sorted_length_le' hv.2.1 hv.2.2
      have hpos := List.length_pos_iff.mpr hv.1
      refine ⟨_, by rw [hs, ok_bind, (C03_cardinality hv hst.stored).1, ok_bind]; rfl, ?_⟩
      rw [sub32_eq (by omega) (by omega), List.range_succ, List.flatMap_append, ← hq]
      simp only [List.flatMap_cons, List.flatMap_nil, List.append_nil, hx, Option.getD_some])
  rw [e, hq, Nat.zero_add]

/-- C48: the queries of `gen_random_select_queries` are ranks inside of the sequences, so `select`
with the same number of queries per sequence succeeds on them. -/
theorem C48_select {k : Nat} {rng : Nat → Nat → Nat → Nat} (hr : RngOk rng)
    (h : FileAt dbg params univ lists m a pad) (hk : k < 4294967296)
    (hn : (keptLists params lists).length < 4294967296) :
    ∃ qs, gen_select_queries dbg' m a k rng = .ok qs ∧
      qs.length = (keptLists params lists).length * k ∧
      (∀ i xs, (keptLists params lists)[i]? = some xs → ∀ j, j < k →
        qs[i * k + j]? = some (rng i j (xs.length - 1)) ∧ rng i j (xs.length - 1) < xs.length) ∧
      tool_select dbg' m a k (qs.map some) = .ok (4 * sumTo (keptLists params lists).length (fun i =>
        sumTo k (fun j => ((keptLists params lists)[i]?.getD [])[qs[i * k + j]?.getD 0]?.getD 0))
          % 18446744073709551616) := by
  obtain ⟨idx, hi⟩ := h.indexed
  have key : ∀ i xs, (keptLists params lists)[i]? = some xs → ∀ j, j < k →
      ((List.range (keptLists params lists).length).flatMap (fun i => (List.range k).map
        (fun j => rng i j (((keptLists params lists)[i]?.getD []).length - 1))))[i * k + j]?
        = some (rng i j (xs.length - 1)) ∧ rng i j (xs.length - 1) < xs.length := by
    intro i xs hx j hj
    have hil : i < (keptLists params lists).length := (List.getElem?_eq_some_iff.mp hx).1
    have hpos := List.length_pos_iff.mpr (hi.valid _ (List.mem_of_getElem? hx)).1
    have := hr i j (xs.length - 1)
    refine ⟨?_, by omega⟩
    rw [blocks_getElem? rfl i j hil hj, hx]
    rfl
  refine ⟨_, gen_select_spec hi, blocks_length _, key, ?_⟩
  refine C41_select h hk hn ?_
  intro i xs hx j hj
  exact ⟨_, (key i xs hx j hj).1, (key i xs hx j hj).2⟩

theorem gen_next_geq_spec {k : Nat} {rng : Nat → Nat → Nat → Nat} (hr : RngOk rng)
    {ks : List (List Nat)} {idx : SIndex} (h : Indexed dbg ks univ m a idx)
    (hroom : ∀ xs ∈ ks, HasRoom xs univ) :
    gen_next_geq_queries dbg' m a k rng = .ok ((List.range ks.length).flatMap (fun i =>
      (List.range k).map (fun j =>
        (ks[i]?.getD [])[rng i j ((ks[i]?.getD []).length - 1)]?.getD 0))) := by
  unfold gen_next_geq_queries
  rw [h.map]
  simp only [ok_bind, h.size, h.univ]
  obtain ⟨⟨qs, o⟩, e, hq, -⟩ := forRange_spec (fun i (s : List Nat × List Nat) =>
      s.1 = (List.range i).flatMap (fun i => (List.range k).map (fun j =>
        (ks[i]?.getD [])[rng i j ((ks[i]?.getD []).length - 1)]?.getD 0)) ∧ s.2.length = univ)
    ks.length 0 ([], List.replicate univ 0) ⟨rfl, List.length_replicate⟩
    (body := fun i (s : List Nat × List Nat) => do
      let sequence ← idx.get dbg' m i
      let (decoded, out) ← sequence.decode dbg' m s.2
      let queries ← forRange (fun k queries => do
        let q ← rdv out (rng i k (u32 (decoded + 18446744073709551615)))
        return queries ++ [q]) k 0 s.1
      return (queries, out)) (by
      rintro i ⟨qs, o⟩ _ hi ⟨hq, ho⟩
      have hx : ks[i]? = some ks[i] := List.getElem?_eq_getElem (by omega)
      generalize ks[i]'(by omega) = xs at hx
      have hm := List.mem_of_getElem? hx
      have hv := h.valid _ hm
      obtain ⟨s, b, hs, -, hst⟩ := h.get i _ hx dbg'
      have hl := sorted_length_le' hv.2.1 hv.2.2
      have hpos := List.length_pos_iff.mpr hv.1
      obtain ⟨o', e, w⟩ := (C43_decode (dbg' := dbg') hv hst.stored o).1 (by
        have := hroom xs hm
        simp only at ho
        rw [ho]; exact this)
      have hu : u32 (xs.length + 18446744073709551615) = xs.length - 1 := by
        unfold u32; omega
      obtain ⟨qs', e', hq'⟩ := forRange_spec (fun j qs' => qs' = qs ++ (List.range j).map (fun j =>
          xs[rng i j (xs.length - 1)]?.getD 0)) k 0 qs (by simp)
        (body := fun k queries => do
          let q ← rdv o' (rng i k (xs.length - 1))
          return queries ++ [q]) (by
          intro j q _ hj hq'
          have hlt : rng i j (xs.length - 1) < xs.length := by
            have := hr i j (xs.length - 1)
            omega
          have h1 := w.2.2.1 _ hlt
          rw [Nat.zero_add, List.getElem?_eq_getElem hlt] at h1
          refine ⟨_, by rw [rdv_of h1, ok_bind]; rfl, ?_⟩
          rw [hq', List.range_succ, List.map_append, List.append_assoc,
            List.map_singleton, List.getElem?_eq_getElem hlt]
          rfl)
      refine ⟨_, by
        rw [hs, ok_bind]
        simp only
        rw [e, ok_bind]
        simp only
        rw [hu, e', ok_bind]; rfl, ?_, w.1.trans ho⟩
      simp only at hq ⊢
      rw [hq', hq, List.range_succ, List.flatMap_append, Nat.zero_add]
      simp only [List.flatMap_cons, List.flatMap_nil, List.append_nil, hx, Option.getD_some])
  rw [e]
  simp only at hq
  rw [hq, Nat.zero_add]
  rfl

/-- C48: if the decoded sequences have room, the queries of `gen_random_next_geq_queries` are elements
of the sequences, so that each answer of `next_geq` on them is the query itself. -/
theorem C48_next_geq {k : Nat} {rng : Nat → Nat → Nat → Nat} (hr : RngOk rng)
    (h : FileAt dbg params univ lists m a) (hk : k < 4294967296)
    (hn : (keptLists params lists).length < 4294967296)
    (hroom : ∀ xs ∈ keptLists params lists, HasRoom xs univ) :
    ∃ qs, gen_next_geq_queries dbg' m a k rng = .ok qs ∧
      qs.length = (keptLists params lists).length * k ∧
      (∀ i xs, (keptLists params lists)[i]? = some xs → ∀ j, j < k →
        ∃ x ∈ xs, qs[i * k + j]? = some x) ∧
      tool_next_geq dbg' m a k (qs.map some) = .ok (4 * sumTo (keptLists params lists).length (fun i =>
        sumTo k (fun j => qs[i * k + j]?.getD 0)) % 18446744073709551616) := by
  obtain ⟨idx, hi⟩ := h.indexed
  generalize hqs : ((List.range (keptLists params lists).length).flatMap (fun i =>
      (List.range k).map (fun j => ((keptLists params lists)[i]?.getD [])[rng i j
        (((keptLists params lists)[i]?.getD []).length - 1)]?.getD 0))) = qs
  have hlen : qs.length = (keptLists params lists).length * k := by rw [← hqs, blocks_length]
  have key : ∀ i xs, (keptLists params lists)[i]? = some xs → ∀ j, j < k →
      ∃ x ∈ xs, qs[i * k + j]? = some x := by
    intro i xs hx j hj
    have hil : i < (keptLists params lists).length := (List.getElem?_eq_some_iff.mp hx).1
    have hpos := List.length_pos_iff.mpr (hi.valid _ (List.mem_of_getElem? hx)).1
    have := hr i j (xs.length - 1)
    refine ⟨xs[rng i j (xs.length - 1)]'(by omega), List.getElem_mem _, ?_⟩
    rw [blocks_getElem? hqs.symm i j hil hj, hx]
    simp only [Option.getD_some]
    rw [List.getElem?_eq_getElem (by omega)]
    rfl
  refine ⟨qs, by rw [gen_next_geq_spec hr hi hroom, hqs], hlen, key, ?_⟩
  rw [C41_next_geq h hk hn ?_ (by omega)]
  · congr 1
    congr 2
    -- each answer is the query
    have : ∀ i, i < (keptLists params lists).length → ∀ j, j < k →
        (((keptLists params lists)[i]?.getD []).find?
          (fun x => decide (qs[i * k + j]?.getD 0 ≤ x))).getD 4294967295 = qs[i * k + j]?.getD 0 := by
      intro i hil j hj
      have hx : (keptLists params lists)[i]? = some (keptLists params lists)[i] :=
        List.getElem?_eq_getElem hil
      generalize (keptLists params lists)[i] = xs at hx
      obtain ⟨x, hxm, hq⟩ := key i xs hx j hj
      rw [hx, hq]
      simp only [Option.getD_some]
      have hv := hi.valid _ (List.mem_of_getElem? hx)
      rw [find_self hv.2.1 hxm]
      rfl
    unfold sumTo
    congr 1
    apply List.map_congr_left
    intro i hi
    rw [List.mem_range] at hi
    congr 1
    apply List.map_congr_left
    intro j hj
    exact this i hi j (List.mem_range.mp hj)
  · intro v hv
    obtain ⟨p, hp⟩ := List.getElem?_of_mem hv
    have hpl : p < qs.length := (List.getElem?_eq_some_iff.mp hp).1
    have hk0 : 0 < k := Nat.pos_of_ne_zero (by rintro rfl; rw [hlen] at hpl; omega)
    have hdiv := Nat.div_add_mod' p k
    have hil : p / k < (keptLists params lists).length := by
      rw [Nat.div_lt_iff_lt_mul hk0, ← hlen]; exact hpl
    obtain ⟨x, hx, hq⟩ := key (p / k) _ (List.getElem?_eq_getElem hil) (p % k)
      (Nat.mod_lt _ hk0)
    rw [hdiv, hp, Option.some.injEq] at hq
    have := (hi.valid _ (List.getElem_mem hil)).2.2 x hx
    omega

/-- C48: the pairs of `gen_random_pairwise_queries` are sequence numbers of an index with that many
sequences, so `intersect` and `union` (C42) succeed on them. -/
theorem C48_pairwise {n num : Nat} {rng : Nat → Nat → Nat → Nat} (hr : RngOk rng) (hn : 1 ≤ num)
    (hn' : num < 4294967296) :
    (gen_pairwise_queries n num rng).length = n ∧
      ∀ q ∈ gen_pairwise_queries n num rng, q.1 < num ∧ q.2 < num := by
  unfold gen_pairwise_queries
  refine ⟨by rw [List.length_map, List.length_range], ?_⟩
  intro q hq
  obtain ⟨i, -, rfl⟩ := List.mem_map.mp hq
  rw [sub32_eq hn' hn]
  have h1 := hr i 0 (num - 1)
  have h2 := hr i 1 (num - 1)
  simp only
  omega

/-- C48: generating queries for `next_geq` from an index whose lists have no room in a buffer of
`universe()` slots writes out of bounds (collection `[[4]]`, universe 5). -/
theorem C48_next_geq_overrun {k : Nat} {rng : Nat → Nat → Nat → Nat} :
    ∃ m, FileAt true {} 5 [[4]] m 4096 ∧ gen_next_geq_queries dbg' m 4096 k rng = .error .ub := by
  obtain ⟨m, h⟩ := tinyFile true 5 (by omega) 4096
  refine ⟨m, h, ?_⟩
  obtain ⟨idx, hi⟩ := h.indexed
  rw [show keptLists {} [[4]] = [[4]] by decide] at hi
  obtain ⟨s, b, hs, -, hst⟩ := hi.get 0 [4] rfl dbg'
  unfold gen_next_geq_queries
  rw [hi.map]
  simp only [ok_bind, hi.size, hi.univ]
  have : s.decode dbg' m (List.replicate 5 0) 0 = .error .ub := by
    refine (C43_decode (hi.valid _ (by simp)) hst.stored _).2 ?_
    rw [List.length_replicate]
    rintro ⟨-, hr⟩
    have := hr 0 0 (by omega) (by omega) (by decide +kernel) (by decide) (by decide)
    revert this
    decide
  rw [forRange_err (e := .ub) (fun _ (s : List Nat × List Nat) => s.2 = List.replicate 5 0) 0 _ 0
    ([], List.replicate 5 0) rfl (Nat.le_refl _) (by simp)]
  · rfl
  · intro j s h1 h2; omega
  · rintro ⟨qs, o⟩ rfl
    rw [hs, ok_bind]
    simp only
    rw [this]
    rfl

example : ∃ m qs, FileAt true { size := 1 } 80000 sampleColl m 4096 ∧
    gen_select_queries false m 4096 2 (fun _ k hi => if k = 0 then 0 else hi) = .ok qs ∧
    qs = [0, 3, 0, 3] ∧ tool_select false m 4096 2 (qs.map some) = .ok (4 * 140006) := by
  obtain ⟨m, h⟩ := sampleFile true 4096
  have hk : keptLists { size := 1 } sampleColl = [[3, 5, 300, 70000], [3, 5, 300, 70000]] := by
    decide
  obtain ⟨qs, e, -, -, et⟩ := C48_select (dbg' := false) (k := 2)
    (rng := fun _ k hi => if k = 0 then 0 else hi)
    (fun i k hi => by simp only; split <;> omega) h (by omega) (by rw [hk]; decide)
  obtain ⟨idx, hi⟩ := h.indexed
  have e2 := gen_select_spec (dbg' := false) (k := 2) (rng := fun _ k hi => if k = 0 then 0 else hi) hi
  rw [hk] at e2
  rw [e] at e2
  obtain rfl : qs = [0, 3, 0, 3] := by
    have := Except.ok.inj e2
    rw [this]
    decide
  refine ⟨m, _, h, e, rfl, ?_⟩
  rw [et, hk]
  rfl

end Sliced
