import Verif.Proof.Basic
/-! # Intersection and union of sorted lists, and of lists of groups -/
namespace Sliced

/-- the elements of `A` that are in `B` -/
def inter (A B : List Nat) : List Nat := A.filter (fun x => decide (x ∈ B))

theorem mem_inter {A B : List Nat} {x : Nat} : x ∈ inter A B ↔ x ∈ A ∧ x ∈ B := by
  simp [inter]

theorem inter_sorted {A B : List Nat} (h : A.Pairwise (· < ·)) : (inter A B).Pairwise (· < ·) :=
  h.filter _

theorem inter_comm {A B : List Nat} (hA : A.Pairwise (· < ·)) (hB : B.Pairwise (· < ·)) :
    inter A B = inter B A :=
  sorted_ext (inter_sorted hA) (inter_sorted hB) (fun x => by rw [mem_inter, mem_inter, and_comm])

theorem inter_length_le (A B : List Nat) : (inter A B).length ≤ A.length :=
  List.length_filter_le _ _

theorem inter_nil (A : List Nat) : inter A [] = [] := by simp [inter]
theorem nil_inter (B : List Nat) : inter [] B = [] := rfl

/-- the sorted union -/
def uni : List Nat → List Nat → List Nat
  | [], B => B
  | a :: A, [] => a :: A
  | a :: A, b :: B =>
    if a < b then a :: uni A (b :: B)
    else if b < a then b :: uni (a :: A) B
    else a :: uni A B
termination_by A B => A.length + B.length

theorem mem_uni {A B : List Nat} {x : Nat} : x ∈ uni A B ↔ x ∈ A ∨ x ∈ B := by
  induction A, B using uni.induct with
  | case1 B => simp [uni]
  | case2 a A => simp [uni]
  | case3 a A b B h ih =>
    rw [uni, if_pos h, List.mem_cons, ih]
    simp only [List.mem_cons]
    exact ⟨fun h => h.elim (fun h => Or.inl (Or.inl h)) (fun h => h.elim (fun h => Or.inl (Or.inr h))
      Or.inr), fun h => h.elim (fun h => h.elim Or.inl (fun h => Or.inr (Or.inl h)))
      (fun h => Or.inr (Or.inr h))⟩
  | case4 a A b B h1 h2 ih =>
    rw [uni, if_neg h1, if_pos h2, List.mem_cons, ih]
    simp only [List.mem_cons]
    exact ⟨fun h => h.elim (fun h => Or.inr (Or.inl h)) (fun h => h.elim Or.inl
      (fun h => Or.inr (Or.inr h))), fun h => h.elim (fun h => Or.inr (Or.inl h))
      (fun h => h.elim Or.inl (fun h => Or.inr (Or.inr h)))⟩
  | case5 a A b B h1 h2 ih =>
    have : a = b := by omega
    subst this
    rw [uni, if_neg h1, if_neg h2, List.mem_cons, ih]
    simp only [List.mem_cons]
    exact ⟨fun h => h.elim (fun h => Or.inl (Or.inl h)) (fun h => h.elim (fun h => Or.inl (Or.inr h))
      (fun h => Or.inr (Or.inr h))), fun h => h.elim (fun h => h.elim Or.inl
      (fun h => Or.inr (Or.inl h))) (fun h => h.elim Or.inl (fun h => Or.inr (Or.inr h)))⟩

theorem uni_sorted {A B : List Nat} (hA : A.Pairwise (· < ·)) (hB : B.Pairwise (· < ·)) :
    (uni A B).Pairwise (· < ·) := by
  induction A, B using uni.induct with
  | case1 B => rw [uni]; exact hB
  | case2 a A => rw [uni]; exact hA
  | case3 a A b B h ih =>
    rw [uni, if_pos h]
    have h1 := List.pairwise_cons.mp hA
    have h2 := List.pairwise_cons.mp hB
    refine List.pairwise_cons.mpr ⟨?_, ih h1.2 hB⟩
    intro x hx
    rcases mem_uni.mp hx with hx | hx
    · exact h1.1 x hx
    · rcases List.mem_cons.mp hx with rfl | hx
      · exact h
      · have := h2.1 x hx; omega
  | case4 a A b B h1' h2' ih =>
    rw [uni, if_neg h1', if_pos h2']
    have h1 := List.pairwise_cons.mp hA
    have h2 := List.pairwise_cons.mp hB
    refine List.pairwise_cons.mpr ⟨?_, ih hA h2.2⟩
    intro x hx
    rcases mem_uni.mp hx with hx | hx
    · rcases List.mem_cons.mp hx with rfl | hx
      · exact h2'
      · have := h1.1 x hx; omega
    · exact h2.1 x hx
  | case5 a A b B h1' h2' ih =>
    have hab : a = b := by omega
    rw [uni, if_neg h1', if_neg h2']
    have h1 := List.pairwise_cons.mp hA
    have h2 := List.pairwise_cons.mp hB
    refine List.pairwise_cons.mpr ⟨?_, ih h1.2 h2.2⟩
    intro x hx
    rcases mem_uni.mp hx with hx | hx
    · exact h1.1 x hx
    · rw [hab]; exact h2.1 x hx

theorem uni_unique {A B L : List Nat} (hA : A.Pairwise (· < ·)) (hB : B.Pairwise (· < ·))
    (hL : L.Pairwise (· < ·)) (h : ∀ x, x ∈ L ↔ x ∈ A ∨ x ∈ B) : L = uni A B :=
  sorted_ext hL (uni_sorted hA hB) (fun x => (h x).trans mem_uni.symm)

theorem uni_comm {A B : List Nat} (hA : A.Pairwise (· < ·)) (hB : B.Pairwise (· < ·)) :
    uni A B = uni B A :=
  uni_unique hB hA (uni_sorted hA hB) (fun x => by rw [mem_uni, or_comm])

theorem uni_nil (A : List Nat) : uni A [] = A := by cases A <;> simp [uni]
theorem nil_uni (B : List Nat) : uni [] B = B := by rw [uni]

theorem inter_map_add (b : Nat) (A B : List Nat) :
    inter (A.map (b + ·)) (B.map (b + ·)) = (inter A B).map (b + ·) := by
  unfold inter
  rw [List.filter_map]
  congr 1
  apply List.filter_congr
  intro x _
  simp only [Function.comp, decide_eq_decide, List.mem_map]
  constructor
  · rintro ⟨y, hy, he⟩; rw [show x = y by omega]; exact hy
  · intro h; exact ⟨x, h, rfl⟩

theorem uni_map_add (b : Nat) {A B : List Nat} (hA : A.Pairwise (· < ·)) (hB : B.Pairwise (· < ·)) :
    uni (A.map (b + ·)) (B.map (b + ·)) = (uni A B).map (b + ·) := by
  symm
  apply uni_unique (pairwise_map_add _ hA) (pairwise_map_add _ hB)
    (pairwise_map_add _ (uni_sorted hA hB))
  intro x
  simp only [List.mem_map, mem_uni]
  constructor
  · rintro ⟨y, hy | hy, rfl⟩
    · exact Or.inl ⟨y, hy, rfl⟩
    · exact Or.inr ⟨y, hy, rfl⟩
  · rintro (⟨y, hy, rfl⟩ | ⟨y, hy, rfl⟩)
    · exact ⟨y, Or.inl hy, rfl⟩
    · exact ⟨y, Or.inr hy, rfl⟩

theorem uni_append_left {X A B : List Nat} (hA : (X ++ A).Pairwise (· < ·))
    (hB : B.Pairwise (· < ·)) (h : ∀ x ∈ X, ∀ y ∈ B, x < y) :
    uni (X ++ A) B = X ++ uni A B := by
  obtain ⟨h1, h2, h3⟩ := List.pairwise_append.mp hA
  symm
  apply uni_unique hA hB
  · refine List.pairwise_append.mpr ⟨h1, uni_sorted h2 hB, ?_⟩
    intro x hx y hy
    rcases mem_uni.mp hy with hy | hy
    · exact h3 x hx y hy
    · exact h x hx y hy
  · intro x
    rw [List.mem_append, List.mem_append, mem_uni, or_assoc]

theorem uni_append_right {Y A B : List Nat} (hA : A.Pairwise (· < ·))
    (hB : (Y ++ B).Pairwise (· < ·)) (h : ∀ y ∈ Y, ∀ x ∈ A, y < x) :
    uni A (Y ++ B) = Y ++ uni A B := by
  obtain ⟨h1, h2, h3⟩ := List.pairwise_append.mp hB
  rw [uni_comm hA hB, uni_append_left hB hA h, uni_comm h2 hA]

theorem uni_append_both {X Y A B : List Nat} (hA : (X ++ A).Pairwise (· < ·))
    (hB : (Y ++ B).Pairwise (· < ·)) (h1 : ∀ x ∈ X, ∀ y ∈ B, x < y) (h2 : ∀ y ∈ Y, ∀ x ∈ A, y < x) :
    uni (X ++ A) (Y ++ B) = uni X Y ++ uni A B := by
  obtain ⟨a1, a2, a3⟩ := List.pairwise_append.mp hA
  obtain ⟨b1, b2, b3⟩ := List.pairwise_append.mp hB
  symm
  apply uni_unique hA hB
  · refine List.pairwise_append.mpr ⟨uni_sorted a1 b1, uni_sorted a2 b2, ?_⟩
    intro x hx y hy
    rcases mem_uni.mp hx with hx | hx <;> rcases mem_uni.mp hy with hy | hy
    · exact a3 x hx y hy
    · exact h1 x hx y hy
    · exact h2 x hx y hy
    · exact b3 x hx y hy
  · intro x
    simp only [List.mem_append, mem_uni]
    constructor
    · rintro ((h | h) | (h | h))
      · exact Or.inl (Or.inl h)
      · exact Or.inr (Or.inl h)
      · exact Or.inl (Or.inr h)
      · exact Or.inr (Or.inr h)
    · rintro ((h | h) | (h | h))
      · exact Or.inl (Or.inl h)
      · exact Or.inr (Or.inl h)
      · exact Or.inl (Or.inr h)
      · exact Or.inr (Or.inr h)

theorem uni_of_nil {A B : List Nat} (h : A = [] ∨ B = []) : uni A B = A ++ B := by
  rcases h with rfl | rfl
  · rw [nil_uni]; rfl
  · rw [uni_nil, List.append_nil]

/-! ## Groups -/

section
variable {α : Type} {key : α → Nat} {f : α → List Nat}

/-- a value of a group of `A` and a value of a group of `B` can only be equal when the groups have
the same key -/
def Sep (key : α → Nat) (f : α → List Nat) (A B : List α) : Prop :=
  ∀ a ∈ A, ∀ b ∈ B, ∀ x, x ∈ f a → x ∈ f b → key a = key b

theorem inter_drop_left {pre A B : List α} (hs : Sep key f (pre ++ A) B)
    (h : ∀ a ∈ pre, ∀ b ∈ B, key a < key b) :
    inter ((pre ++ A).flatMap f) (B.flatMap f) = inter (A.flatMap f) (B.flatMap f) := by
  unfold inter
  rw [List.flatMap_append, List.filter_append]
  have : (pre.flatMap f).filter (fun x => decide (x ∈ B.flatMap f)) = [] := by
    rw [List.filter_eq_nil_iff]
    intro x hx
    rw [List.mem_flatMap] at hx
    obtain ⟨a, ha, hxa⟩ := hx
    rw [decide_eq_true_eq, List.mem_flatMap]
    rintro ⟨b, hb, hxb⟩
    have h1 := hs a (by simp [ha]) b hb x hxa hxb
    have h2 := h a ha b hb
    omega
  rw [this, List.nil_append]

theorem inter_drop_right {pre A B : List α} (hs : Sep key f A (pre ++ B))
    (h : ∀ a ∈ A, ∀ b ∈ pre, key b < key a) :
    inter (A.flatMap f) ((pre ++ B).flatMap f) = inter (A.flatMap f) (B.flatMap f) := by
  unfold inter
  apply List.filter_congr
  intro x hx
  rw [List.mem_flatMap] at hx
  obtain ⟨a, ha, hxa⟩ := hx
  rw [decide_eq_decide, List.flatMap_append, List.mem_append]
  constructor
  · rintro (h1 | h1)
    · rw [List.mem_flatMap] at h1
      obtain ⟨b, hb, hxb⟩ := h1
      have h1 := hs a ha b (by simp [hb]) x hxa hxb
      have h2 := h a ha b hb
      omega
    · exact h1
  · exact Or.inr

theorem inter_cons_cons {a b : α} {A B : List α} (hs : Sep key f (a :: A) (b :: B))
    (hab : key a = key b) (hA : ∀ c ∈ A, key a < key c) (hB : ∀ c ∈ B, key b < key c) :
    inter ((a :: A).flatMap f) ((b :: B).flatMap f)
      = inter (f a) (f b) ++ inter (A.flatMap f) (B.flatMap f) := by
  have h1 : inter (A.flatMap f) ((b :: B).flatMap f) = inter (A.flatMap f) (B.flatMap f) := by
    have := inter_drop_right (key := key) (f := f) (pre := [b]) (A := A) (B := B)
      (fun a' ha' b' hb' => hs a' (by simp [ha']) b' (by simpa using hb'))
      (by intro a' ha' b' hb'; simp at hb'; subst hb'; have := hA a' ha'; omega)
    simpa using this
  have h2 : inter (f a) ((b :: B).flatMap f) = inter (f a) (f b) := by
    unfold inter
    apply List.filter_congr
    intro x hx
    rw [decide_eq_decide, List.flatMap_cons, List.mem_append]
    constructor
    · rintro (h | h)
      · exact h
      · rw [List.mem_flatMap] at h
        obtain ⟨b', hb', hxb⟩ := h
        have h1 := hs a (by simp) b' (by simp [hb']) x hx hxb
        have h2 := hB b' hb'
        omega
    · exact Or.inl
  rw [← h2, ← h1]
  unfold inter
  rw [List.flatMap_cons (x := a), List.filter_append]

end

end Sliced
