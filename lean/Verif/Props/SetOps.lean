import Verif.Props.StoredMany
import Verif.Props.Enumerator
import Verif.Proof.Intersection
import Verif.Proof.Union
/-!
# Pairwise set operations

C10, C11, the pairwise part of C14, and C23, C24.
`dbg₁`, `dbg₂` are the modes in which the two sequences were built, `dbg` the one of the library
that combines them.
-/
namespace Sliced

variable {dbg dbg₁ dbg₂ : Bool} {tab : Nat → List Nat} {xs ys Z : List Nat} {m : Mem} {l r : SSeq}

theorem Wrote.take_zero {out out' : List Nat} {k : Nat} {L : List Nat} (h : Wrote out 0 L k out') :
    out'.take L.length = L := by
  have := h.take
  rwa [List.drop_zero] at this

theorem uni_length_le (A B : List Nat) : (uni A B).length ≤ A.length + B.length := by
  induction A generalizing B with
  | nil => rw [nil_uni]; simp
  | cons a A ihA =>
    induction B with
    | nil => rw [uni_nil]; simp
    | cons b B ihB =>
      rw [uni]
      simp only [List.length_cons] at ihB ⊢
      split
      · have := ihA (b :: B); simp only [List.length_cons] at this ⊢; omega
      · split
        · simp only [List.length_cons]; omega
        · have := ihA B; simp only [List.length_cons]; omega

theorem enumerates_inter (hx : Valid xs) :
    Enumerates (inter xs ys) (fun v => v ∈ xs ∧ v ∈ ys) :=
  ⟨inter_sorted hx.2.1, fun _ => mem_inter⟩

theorem enumerates_uni (hx : Valid xs) (hy : Valid ys) :
    Enumerates (uni xs ys) (fun v => v ∈ xs ∨ v ∈ ys) :=
  ⟨uni_sorted hx.2.1 hy.2.1, fun _ => mem_uni⟩

/-- C10: with `Z` the increasing enumeration of the common elements, `pairwise_intersection` returns
`|Z|` and writes `Z`, at any position of any buffer with 23 spare slots, and whatever the scratch
vector `x` holds.  The two sequences may be anywhere in memory, also the same one. -/
theorem C10_intersection (ht : TabOk tab) (hx : Valid xs) (hy : Valid ys)
    (hl : Stored dbg₁ xs 31 m l) (hr : Stored dbg₂ ys 31 m r)
    (hZ : Enumerates Z (fun v => v ∈ xs ∧ v ∈ ys)) (x : List Nat) (hs : x.length = 1024)
    (out : List Nat) (p : Nat) (hcap : p + Z.length + 23 ≤ out.length) :
    ∃ x' out', pairwise_intersection dbg tab m l r x out p = .ok (Z.length, x', out') ∧
      x'.length = 1024 ∧ Wrote out p Z 23 out' := by
  have e : Z = inter (seqElems (chunksOf xs)) (seqElems (chunksOf ys)) := by
    rw [seqElems_chunksOf hx, seqElems_chunksOf hy]
    exact hZ.unique (enumerates_inter hx)
  rw [e] at hcap ⊢
  exact pairwise_intersection_spec ht (hl.repr hx) (hr.repr hy) hs hcap

/-- C10: such a `Z` exists. -/
theorem C10_intersection_exists (ht : TabOk tab) (hx : Valid xs) (hy : Valid ys)
    (hl : Stored dbg₁ xs 31 m l) (hr : Stored dbg₂ ys 31 m r) (x : List Nat)
    (hs : x.length = 1024) (out : List Nat) (hcap : min xs.length ys.length + 23 ≤ out.length) :
    ∃ Z x' out', Enumerates Z (fun v => v ∈ xs ∧ v ∈ ys) ∧
      pairwise_intersection dbg tab m l r x out 0 = .ok (Z.length, x', out') ∧
      out'.take Z.length = Z := by
  have h1 := inter_length_le xs ys
  have h2 := inter_length_le ys xs
  rw [inter_comm hy.2.1 hx.2.1] at h2
  obtain ⟨x', out', e, -, w⟩ := C10_intersection (dbg := dbg) ht hx hy hl hr (enumerates_inter hx) x
    hs out 0 (by omega)
  exact ⟨_, x', out', enumerates_inter hx, e, w.take_zero⟩

/-- C11: with `Z` the increasing enumeration of the elements of either list, `pairwise_union`
returns `|Z|` and writes `Z`.  The encodings must be disjoint in memory or the same one. -/
theorem C11_union {a b : Nat} {bx bY : List UInt8} (hx : Valid xs) (hy : Valid ys)
    (hl : StoredAt dbg₁ xs 31 m a bx l) (hr : StoredAt dbg₂ ys 31 m b bY r)
    (hpos : a = b ∨ a + bx.length ≤ b ∨ b + bY.length ≤ a)
    (hZ : Enumerates Z (fun v => v ∈ xs ∨ v ∈ ys)) (s : UScratch) (hs : s.Ok)
    (out : List Nat) (p : Nat) (hcap : p + Z.length + 23 ≤ out.length) :
    ∃ s' out', pairwise_union dbg m l r s out p = .ok (Z.length, s', out') ∧ s'.Ok ∧
      Wrote out p Z 23 out' := by
  have e : Z = uni (seqElems (chunksOf xs)) (seqElems (chunksOf ys)) := by
    rw [seqElems_chunksOf hx, seqElems_chunksOf hy]
    exact hZ.unique (enumerates_uni hx hy)
  rw [e] at hcap ⊢
  refine pairwise_union_spec (hl.stored.repr hx) (hr.stored.repr hy) hs ?_ hcap
  have r1 := hl.region hx
  have r2 := hr.region hy
  rcases hpos with h | h | h
  · subst h
    obtain ⟨rfl, rfl⟩ := StoredAt.unique hx hy hl hr
    exact Or.inl ⟨rfl, rfl⟩
  · exact Or.inr (Or.inl (by omega))
  · exact Or.inr (Or.inr (by omega))

/-- C11: such a `Z` exists, and a buffer with room for both lists and 23 more is big enough. -/
theorem C11_union_exists {a b : Nat} {bx bY : List UInt8} (hx : Valid xs) (hy : Valid ys)
    (hl : StoredAt dbg₁ xs 31 m a bx l) (hr : StoredAt dbg₂ ys 31 m b bY r)
    (hpos : a = b ∨ a + bx.length ≤ b ∨ b + bY.length ≤ a) (s : UScratch) (hs : s.Ok)
    (out : List Nat) (hcap : xs.length + ys.length + 23 ≤ out.length) :
    ∃ Z s' out', Enumerates Z (fun v => v ∈ xs ∨ v ∈ ys) ∧
      pairwise_union dbg m l r s out 0 = .ok (Z.length, s', out') ∧ out'.take Z.length = Z := by
  have h1 := uni_length_le xs ys
  obtain ⟨x', out', e, -, w⟩ := C11_union (dbg := dbg) hx hy hl hr hpos (enumerates_uni hx hy) s
    hs out 0 (by omega)
  exact ⟨_, x', out', enumerates_uni hx hy, e, w.take_zero⟩

/-- The scratch buffers at program start. -/
def UScratch.init : UScratch := ⟨List.replicate 4 0, List.replicate 1024 0⟩

theorem UScratch.init_ok : UScratch.init.Ok :=
  ⟨⟨List.length_replicate, fun w hw => by rw [List.eq_of_mem_replicate hw]; omega⟩,
    List.length_replicate⟩

/-- A non-trivial instance: the mixed sample list and a small list. -/
example : ∃ m l r Z x' out', Stored true sampleList 31 m l ∧ Stored true [3, 5, 300, 70000] 31 m r ∧
    Enumerates Z (fun v => v ∈ sampleList ∧ v ∈ [3, 5, 300, 70000]) ∧
    pairwise_intersection false stdTab m l r (List.replicate 1024 0) (List.replicate 27 0) 0
      = .ok (Z.length, x', out') ∧ out'.take Z.length = Z := by
  obtain ⟨m, l, r, a, b, bx, bY, h1, h2, -⟩ := stored_pair true sampleList_valid small_valid 31
  obtain ⟨Z, x', o, hZ, e, w⟩ := C10_intersection_exists (dbg := false) stdTab_ok sampleList_valid
    small_valid h1.stored h2.stored (List.replicate 1024 0) List.length_replicate
    (List.replicate 27 0) (by
      rw [List.length_replicate]
      have := Nat.min_le_right sampleList.length [3, 5, 300, 70000].length
      simp only [List.length_cons, List.length_nil] at this ⊢
      omega)
  exact ⟨m, l, r, Z, x', o, h1.stored, h2.stored, hZ, e, w⟩

example : ∃ m l r a b bx bY Z s' out', StoredAt true sampleList 31 m a bx l ∧
    StoredAt true [3, 5, 300, 70000] 31 m b bY r ∧ a + bx.length ≤ b ∧
    Enumerates Z (fun v => v ∈ sampleList ∨ v ∈ [3, 5, 300, 70000]) ∧
    pairwise_union false m l r UScratch.init (List.replicate (sampleList.length + 27) 0) 0
      = .ok (Z.length, s', out') ∧ out'.take Z.length = Z := by
  obtain ⟨m, l, r, a, b, bx, bY, h1, h2, h3⟩ := stored_pair true sampleList_valid small_valid 31
  obtain ⟨Z, x', o, hZ, e, w⟩ := C11_union_exists (dbg := false) sampleList_valid
    small_valid h1 h2 (Or.inr (Or.inl h3)) UScratch.init UScratch.init_ok
    (List.replicate (sampleList.length + 27) 0) (by
      rw [List.length_replicate]
      simp only [List.length_cons, List.length_nil]
      omega)
  exact ⟨m, l, r, a, b, bx, bY, Z, x', o, h1, h2, h3, hZ, e, w⟩

/-! ## C14 -/

/-- C14: swapping the arguments of the intersection, starting from other scratch contents and
another buffer, gives the same size and the same elements. -/
theorem C14_intersection_comm (ht : TabOk tab) (hx : Valid xs) (hy : Valid ys)
    (hl : Stored dbg₁ xs 31 m l) (hr : Stored dbg₂ ys 31 m r) (x y : List Nat)
    (hsx : x.length = 1024) (hsy : y.length = 1024) (out out₂ : List Nat)
    (hcap : min xs.length ys.length + 23 ≤ out.length)
    (hcap₂ : min xs.length ys.length + 23 ≤ out₂.length) :
    ∃ Z x' y' o o₂, pairwise_intersection dbg tab m l r x out 0 = .ok (Z.length, x', o) ∧
      pairwise_intersection dbg tab m r l y out₂ 0 = .ok (Z.length, y', o₂) ∧
      o.take Z.length = Z ∧ o₂.take Z.length = Z := by
  obtain ⟨Z, x', o, hZ, e1, w1⟩ := C10_intersection_exists (dbg := dbg) ht hx hy hl hr x hsx out hcap
  obtain ⟨Z', y', o', hZ', e2, w2⟩ := C10_intersection_exists (dbg := dbg) ht hy hx hr hl y hsy out₂
    (by rw [Nat.min_comm]; exact hcap₂)
  have : Z = Z' := hZ.unique ⟨hZ'.1, fun v => (hZ'.2 v).trans and_comm⟩
  subst this
  exact ⟨Z, x', y', o, o', e1, e2, w1, w2⟩

/-- C14, the same for the union. -/
theorem C14_union_comm {a b : Nat} {bx bY : List UInt8} (hx : Valid xs) (hy : Valid ys)
    (hl : StoredAt dbg₁ xs 31 m a bx l) (hr : StoredAt dbg₂ ys 31 m b bY r)
    (hpos : a = b ∨ a + bx.length ≤ b ∨ b + bY.length ≤ a) (s t : UScratch) (hs : s.Ok) (ht : t.Ok)
    (out out₂ : List Nat) (hcap : xs.length + ys.length + 23 ≤ out.length)
    (hcap₂ : xs.length + ys.length + 23 ≤ out₂.length) :
    ∃ Z s' t' o o₂, pairwise_union dbg m l r s out 0 = .ok (Z.length, s', o) ∧
      pairwise_union dbg m r l t out₂ 0 = .ok (Z.length, t', o₂) ∧
      o.take Z.length = Z ∧ o₂.take Z.length = Z := by
  obtain ⟨Z, x', o, hZ, e1, w1⟩ := C11_union_exists (dbg := dbg) hx hy hl hr hpos s hs out hcap
  obtain ⟨Z', y', o', hZ', e2, w2⟩ := C11_union_exists (dbg := dbg) hy hx hr hl
    (hpos.elim (fun h => Or.inl h.symm) (fun h => Or.inr h.symm)) t ht out₂ (by omega)
  have : Z = Z' := hZ.unique ⟨hZ'.1, fun v => (hZ'.2 v).trans or_comm⟩
  subst this
  exact ⟨Z, x', y', o, o', e1, e2, w1, w2⟩

/-- C14: a sequence intersected with itself gives that sequence. -/
theorem C14_intersection_self (ht : TabOk tab) (hx : Valid xs) (hl : Stored dbg₁ xs 31 m l)
    (x : List Nat) (hsx : x.length = 1024) (out : List Nat) (p : Nat)
    (hcap : p + xs.length + 23 ≤ out.length) :
    ∃ x' o, pairwise_intersection dbg tab m l l x out p = .ok (xs.length, x', o) ∧
      Wrote out p xs 23 o := by
  obtain ⟨x', o, e, -, w⟩ := C10_intersection (dbg := dbg) ht hx hx hl hl (Z := xs)
    ⟨hx.2.1, fun v => (and_self_iff).symm⟩ x hsx out p hcap
  exact ⟨x', o, e, w⟩

/-- C14: a sequence united with itself gives that sequence. -/
theorem C14_union_self (hx : Valid xs) (hl : Stored dbg₁ xs 31 m l) (s : UScratch) (hs : s.Ok)
    (out : List Nat) (p : Nat) (hcap : p + xs.length + 23 ≤ out.length) :
    ∃ s' o, pairwise_union dbg m l l s out p = .ok (xs.length, s', o) ∧ Wrote out p xs 23 o := by
  obtain ⟨a, bytes, h⟩ := hl.at
  obtain ⟨x', o, e, -, w⟩ := C11_union (dbg := dbg) hx hx h h (Or.inl rfl) (Z := xs)
    ⟨hx.2.1, fun v => (or_self_iff).symm⟩ s hs out p hcap
  exact ⟨x', o, e, w⟩

example : ∃ m l s' o, Stored true sampleList 31 m l ∧
    pairwise_union true m l l UScratch.init (List.replicate (sampleList.length + 23) 0) 0
      = .ok (sampleList.length, s', o) ∧
    Wrote (List.replicate (sampleList.length + 23) 0) 0 sampleList 23 o := by
  obtain ⟨m, l, h⟩ := stored_exists true sampleList_valid 31
  obtain ⟨s', o, e, w⟩ := C14_union_self (dbg := true) sampleList_valid h _ UScratch.init_ok
    (List.replicate (sampleList.length + 23) 0) 0 (by rw [List.length_replicate]; omega)
  exact ⟨m, l, s', o, h, e, w⟩

example : ∃ m l r Z x' y' o o₂, Stored true sampleList 31 m l ∧ Stored true [3, 5, 300, 70000] 31 m r ∧
    pairwise_intersection false stdTab m l r (List.replicate 1024 0) (List.replicate 27 0) 0
      = .ok (Z, x', o) ∧
    pairwise_intersection false stdTab m r l (List.replicate 1024 0) (List.replicate 27 0) 0
      = .ok (Z, y', o₂) ∧ o.take Z = o₂.take Z := by
  obtain ⟨m, l, r, a, b, bx, bY, h1, h2, -⟩ := stored_pair true sampleList_valid small_valid 31
  have hm : min sampleList.length [3, 5, 300, 70000].length + 23 ≤ (List.replicate 27 0).length := by
    have := Nat.min_le_right sampleList.length [3, 5, 300, 70000].length
    simp only [List.length_cons, List.length_nil, List.length_replicate] at this ⊢
    omega
  obtain ⟨Z, x', y', o, o₂, e1, e2, w1, w2⟩ := C14_intersection_comm (dbg := false) stdTab_ok
    sampleList_valid small_valid h1.stored h2.stored (List.replicate 1024 0) (List.replicate 1024 0)
    List.length_replicate List.length_replicate (List.replicate 27 0) (List.replicate 27 0) hm hm
  exact ⟨m, l, r, _, x', y', o, o₂, h1.stored, h2.stored, e1, e2, w1.trans w2.symm⟩

example : ∃ m l r Z s' t' out o o₂, Stored true sampleList 31 m l ∧ Stored true [3, 5, 300, 70000] 31 m r ∧
    pairwise_union false m l r UScratch.init out 0 = .ok (Z, s', o) ∧
    pairwise_union false m r l UScratch.init out 0 = .ok (Z, t', o₂) ∧ o.take Z = o₂.take Z := by
  obtain ⟨m, l, r, a, b, bx, bY, h1, h2, h3⟩ := stored_pair true sampleList_valid small_valid 31
  obtain ⟨Z, s', t', o, o₂, e1, e2, w1, w2⟩ := C14_union_comm (dbg := false)
    sampleList_valid small_valid h1 h2 (Or.inr (Or.inl h3)) UScratch.init UScratch.init UScratch.init_ok
    UScratch.init_ok (List.replicate _ 0) (List.replicate _ 0)
    (Nat.le_of_eq List.length_replicate.symm) (Nat.le_of_eq List.length_replicate.symm)
  exact ⟨m, l, r, _, s', t', _, o, o₂, h1.stored, h2.stored, e1, e2, w1.trans w2.symm⟩

example : ∃ m l x' o, Stored true [3, 5, 300, 70000] 31 m l ∧
    pairwise_intersection false stdTab m l l (List.replicate 1024 0) (List.replicate 30 0) 2
      = .ok (4, x', o) ∧ Wrote (List.replicate 30 0) 2 [3, 5, 300, 70000] 23 o := by
  obtain ⟨m, l, h⟩ := stored_exists true small_valid 31
  obtain ⟨x', o, e, w⟩ := C14_intersection_self (dbg := false) stdTab_ok small_valid h
    (List.replicate 1024 0) List.length_replicate (List.replicate 30 0) 2 (by simp)
  exact ⟨m, l, x', o, h, e, w⟩

end Sliced
