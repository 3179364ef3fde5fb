import Verif.Props.ManyWay
import Verif.Props.Build
/-!
# Results that are stored again (C71)

The result of a set operation, if it is not empty, is a list that can be built and stored like any other, so
operations can be nested.  An empty result cannot be built (C17); the caller has to answer for it without a
call.  Here: whatever formula of intersections and unions is evaluated in this way, in whatever memories and
buffers, the result is the set that the formula means; so all laws of sets hold for the results and for the
bytes of their encodings.  The numbers that are returned also obey the laws of counting.
-/
namespace Sliced

/-- a formula over lists -/
inductive Formula where
  | list (xs : List Nat)
  | and (f g : Formula)
  | or (f g : Formula)

/-- the set that a formula means -/
def Formula.Sat : Formula → Nat → Prop
  | .list xs, v => v ∈ xs
  | .and f g, v => f.Sat v ∧ g.Sat v
  | .or f g, v => f.Sat v ∨ g.Sat v

/-- all lists of the formula can be stored -/
def Formula.Good : Formula → Prop
  | .list xs => Valid xs
  | .and f g => f.Good ∧ g.Good
  | .or f g => f.Good ∧ g.Good

/-- `Evaluates dbg tab f Z`: an evaluation of `f` from the inside to the outside ends with the list `Z`.  At each
operation both operands are built and stored in some memory, and the first `n` slots of the output buffer are
taken, with `n` what the operation returned; an operand without an element is not stored but handled by the
caller. -/
inductive Evaluates (dbg : Bool) (tab : Nat → List Nat) : Formula → List Nat → Prop where
  | list {xs} : Evaluates dbg tab (.list xs) xs
  | and {f g X Y m a b bx bY l r x x' out n out'} : Evaluates dbg tab f X → Evaluates dbg tab g Y →
      X ≠ [] → Y ≠ [] → StoredAt dbg X 31 m a bx l → StoredAt dbg Y 31 m b bY r →
      x.length = 1024 → min X.length Y.length + 23 ≤ out.length →
      pairwise_intersection dbg tab m l r x out 0 = .ok (n, x', out') →
      Evaluates dbg tab (.and f g) (out'.take n)
  | and_left {f g Y} : Evaluates dbg tab f [] → Evaluates dbg tab g Y → Evaluates dbg tab (.and f g) []
  | and_right {f g X} : Evaluates dbg tab f X → Evaluates dbg tab g [] → Evaluates dbg tab (.and f g) []
  | or {f g X Y m a b bx bY l r s s' out n out'} : Evaluates dbg tab f X → Evaluates dbg tab g Y →
      X ≠ [] → Y ≠ [] → StoredAt dbg X 31 m a bx l → StoredAt dbg Y 31 m b bY r →
      (a = b ∨ a + bx.length ≤ b ∨ b + bY.length ≤ a) →
      s.Ok → X.length + Y.length + 23 ≤ out.length →
      pairwise_union dbg m l r s out 0 = .ok (n, s', out') →
      Evaluates dbg tab (.or f g) (out'.take n)
  | or_left {f g Y} : Evaluates dbg tab f [] → Evaluates dbg tab g Y → Evaluates dbg tab (.or f g) Y
  | or_right {f g X} : Evaluates dbg tab f X → Evaluates dbg tab g [] → Evaluates dbg tab (.or f g) X

variable {dbg dbg₁ dbg₂ : Bool} {tab : Nat → List Nat} {m : Mem} {l r : SSeq} {xs ys Z W : List Nat}
variable {a b : Nat} {bx bY : List UInt8}

theorem Formula.Good.lt {f : Formula} (h : f.Good) {v : Nat} (hs : f.Sat v) : v < 4294901760 := by
  induction f with
  | list xs => exact h.2.2 v hs
  | and f g ihf ihg => exact ihf h.1 hs.1
  | or f g ihf ihg => exact hs.elim (ihf h.1) (ihg h.2)

/-- a non-empty list of the values of a good formula can be stored -/
theorem Formula.Good.valid {f : Formula} (h : f.Good) (hZ : Enumerates Z f.Sat) (hne : Z ≠ []) : Valid Z :=
  ⟨hne, hZ.1, fun v hv => h.lt ((hZ.2 v).mp hv)⟩

/-- C71: the result of every evaluation is, in increasing order, the set that the formula means. -/
theorem C71_formula (ht : TabOk tab) {f : Formula} (hf : f.Good) (h : Evaluates dbg tab f Z) :
    Enumerates Z f.Sat := by
  induction h with
  | list => exact ⟨hf.2.1, fun v => Iff.rfl⟩
  | and h1 h2 n1 n2 sl sr hx hcap e ih1 ih2 =>
    have i1 := ih1 hf.1
    have i2 := ih2 hf.2
    obtain ⟨Z, x', o, hZ, e', w⟩ := C10_intersection_exists (dbg := dbg) ht (hf.1.valid i1 n1)
      (hf.2.valid i2 n2) sl.stored sr.stored _ hx _ hcap
    rw [e] at e'
    simp only [Except.ok.injEq, Prod.mk.injEq] at e'
    obtain ⟨rfl, rfl, rfl⟩ := e'
    rw [w]
    exact ⟨hZ.1, fun v => (hZ.2 v).trans (and_congr (i1.2 v) (i2.2 v))⟩
  | and_left h1 h2 ih1 ih2 =>
    exact ⟨List.Pairwise.nil, fun v => ⟨fun h => by simp at h, fun h => ((ih1 hf.1).2 v).mpr h.1⟩⟩
  | and_right h1 h2 ih1 ih2 =>
    exact ⟨List.Pairwise.nil, fun v => ⟨fun h => by simp at h, fun h => ((ih2 hf.2).2 v).mpr h.2⟩⟩
  | or h1 h2 n1 n2 sl sr hpos hs hcap e ih1 ih2 =>
    have i1 := ih1 hf.1
    have i2 := ih2 hf.2
    obtain ⟨Z, x', o, hZ, e', w⟩ := C11_union_exists (dbg := dbg) (hf.1.valid i1 n1)
      (hf.2.valid i2 n2) sl sr hpos _ hs _ hcap
    rw [e] at e'
    simp only [Except.ok.injEq, Prod.mk.injEq] at e'
    obtain ⟨rfl, rfl, rfl⟩ := e'
    rw [w]
    exact ⟨hZ.1, fun v => (hZ.2 v).trans (or_congr (i1.2 v) (i2.2 v))⟩
  | or_left h1 h2 ih1 ih2 =>
    refine ⟨(ih2 hf.2).1, fun v => ((ih2 hf.2).2 v).trans ⟨Or.inr, fun h => h.elim (fun h => ?_) id⟩⟩
    exact absurd (((ih1 hf.1).2 v).mpr h) (by simp)
  | or_right h1 h2 ih1 ih2 =>
    refine ⟨(ih1 hf.1).1, fun v => ((ih1 hf.1).2 v).trans ⟨Or.inl, fun h => h.elim id (fun h => ?_)⟩⟩
    exact absurd (((ih2 hf.2).2 v).mpr h) (by simp)

/-- C71: every formula over lists that can be stored can be evaluated: no operation on an intermediate
result fails. -/
theorem C71_evaluates (dbg : Bool) (ht : TabOk tab) {f : Formula} (hf : f.Good) :
    ∃ Z, Evaluates dbg tab f Z := by
  induction f with
  | list xs => exact ⟨xs, .list⟩
  | and f g ihf ihg =>
    obtain ⟨X, h1⟩ := ihf hf.1
    obtain ⟨Y, h2⟩ := ihg hf.2
    by_cases n1 : X = []
    · subst n1; exact ⟨_, .and_left h1 h2⟩
    by_cases n2 : Y = []
    · subst n2; exact ⟨_, .and_right h1 h2⟩
    have v1 := hf.1.valid (C71_formula ht hf.1 h1) n1
    have v2 := hf.2.valid (C71_formula ht hf.2 h2) n2
    obtain ⟨m, l, r, a, b, bx, bY, sl, sr, -⟩ := stored_pair dbg v1 v2 31
    obtain ⟨Z, x', o, -, e, -⟩ := C10_intersection_exists (dbg := dbg) ht v1 v2 sl.stored sr.stored
      (List.replicate 1024 0) List.length_replicate
      (List.replicate (min X.length Y.length + 23) 0) (by rw [List.length_replicate]; exact Nat.le_refl _)
    exact ⟨_, .and h1 h2 n1 n2 sl sr List.length_replicate
      (by rw [List.length_replicate]; exact Nat.le_refl _) e⟩
  | or f g ihf ihg =>
    obtain ⟨X, h1⟩ := ihf hf.1
    obtain ⟨Y, h2⟩ := ihg hf.2
    by_cases n1 : X = []
    · subst n1; exact ⟨_, .or_left h1 h2⟩
    by_cases n2 : Y = []
    · subst n2; exact ⟨_, .or_right h1 h2⟩
    have v1 := hf.1.valid (C71_formula ht hf.1 h1) n1
    have v2 := hf.2.valid (C71_formula ht hf.2 h2) n2
    obtain ⟨m, l, r, a, b, bx, bY, sl, sr, hp⟩ := stored_pair dbg v1 v2 31
    obtain ⟨Z, s', o, -, e, -⟩ := C11_union_exists (dbg := dbg) v1 v2 sl sr (Or.inr (Or.inl hp))
      UScratch.init UScratch.init_ok
      (List.replicate (X.length + Y.length + 23) 0) (by rw [List.length_replicate]; exact Nat.le_refl _)
    exact ⟨_, .or h1 h2 n1 n2 sl sr (Or.inr (Or.inl hp)) UScratch.init_ok
      (by rw [List.length_replicate]; exact Nat.le_refl _) e⟩

/-- C71: two formulas with the same meaning give the same list; and, if it is built, the same bytes. -/
theorem C71_laws (ht : TabOk tab) {f g : Formula} (hf : f.Good) (hg : g.Good)
    (same : ∀ v, f.Sat v ↔ g.Sat v) (h1 : Evaluates dbg₁ tab f Z) (h2 : Evaluates dbg₂ tab g W) :
    Z = W ∧ ∀ st st' bz bw, build_sequence dbg₁ Z [] = .ok (st, bz) →
      build_sequence dbg₂ W [] = .ok (st', bw) → Z ≠ [] → bz = bw := by
  have i1 := C71_formula ht hf h1
  have i2 := C71_formula ht hg h2
  have e : Z = W := i1.unique ⟨i2.1, fun v => (i2.2 v).trans (same v).symm⟩
  refine ⟨e, fun st st' bz bw b1 b2 hne => ?_⟩
  have v1 := hf.valid i1 hne
  exact (C26_injective v1 (e ▸ v1) b1 b2).mpr e

/-- C71: for example the distributive law and the law of absorption. -/
theorem C71_distributive (ht : TabOk tab) {A B C : List Nat} (hA : Valid A) (hB : Valid B) (hC : Valid C)
    (h1 : Evaluates dbg₁ tab (.and (.list A) (.or (.list B) (.list C))) Z)
    (h2 : Evaluates dbg₂ tab (.or (.and (.list A) (.list B)) (.and (.list A) (.list C))) W) : Z = W :=
  (C71_laws ht (f := .and (.list A) (.or (.list B) (.list C)))
    (g := .or (.and (.list A) (.list B)) (.and (.list A) (.list C))) ⟨hA, hB, hC⟩ ⟨⟨hA, hB⟩, hA, hC⟩
    (fun _ => and_or_left) h1 h2).1

theorem C71_absorption (ht : TabOk tab) {A B : List Nat} (hA : Valid A) (hB : Valid B)
    (h1 : Evaluates dbg tab (.or (.list A) (.and (.list A) (.list B))) Z) : Z = A :=
  (C71_laws (dbg₂ := dbg) ht (f := .or (.list A) (.and (.list A) (.list B))) (g := .list A) ⟨hA, hA, hB⟩ hA
    (fun _ => ⟨fun h => h.elim id And.left, Or.inl⟩) h1 .list).1

example : ∃ f Z, f = Formula.and (.list [3, 5, 300, 70000]) (.or (.list sampleList) (.list [70000])) ∧
    Evaluates true stdTab f Z ∧ 70000 ∈ Z ∧ 70001 ∉ Z := by
  have hf : Formula.Good (.and (.list [3, 5, 300, 70000]) (.or (.list sampleList) (.list [70000]))) :=
    ⟨⟨by simp, by simp, by simp⟩, sampleList_valid, ⟨by simp, by simp, by simp⟩⟩
  obtain ⟨Z, h⟩ := C71_evaluates true stdTab_ok hf
  have hZ := C71_formula stdTab_ok hf h
  refine ⟨_, Z, rfl, h, (hZ.2 _).mpr ⟨by simp [Formula.Sat], Or.inr (by simp [Formula.Sat])⟩, fun h => ?_⟩
  have := ((hZ.2 _).mp h).1
  simp [Formula.Sat] at this

/-! ## Counting -/

theorem counts_sorted {A B I U : List Nat} (hA : A.Pairwise (· < ·)) (hB : B.Pairwise (· < ·))
    (hI : Enumerates I (fun v => v ∈ A ∧ v ∈ B)) (hU : Enumerates U (fun v => v ∈ A ∨ v ∈ B)) :
    U.length + I.length = A.length + B.length := by
  have nd : ∀ {L : List Nat}, L.Pairwise (· < ·) → L.Nodup := fun h => h.imp (fun h => Nat.ne_of_lt h)
  have p1 : I.Perm (A.filter (fun v => decide (v ∈ B))) := by
    refine (List.perm_ext_iff_of_nodup (nd hI.1) ((nd hA).filter _)).mpr (fun v => ?_)
    rw [hI.2]; simp
  have p2 : U.Perm (A.filter (fun v => !decide (v ∈ B)) ++ B) := by
    refine (List.perm_ext_iff_of_nodup (nd hU.1) ?_).mpr (fun v => ?_)
    · refine List.nodup_append.mpr ⟨(nd hA).filter _, nd hB, fun x hx y hy e => ?_⟩
      subst e
      simp [hy] at hx
    · rw [hU.2]
      by_cases v ∈ B <;> simp [*]
  have l1 := p1.length_eq
  have l2 := p2.length_eq
  rw [List.length_append] at l2
  have : A.length = (A.filter (fun v => decide (v ∈ B))).length
      + (A.filter (fun v => !decide (v ∈ B))).length := by
    clear l1 l2 p1 p2 hI hU hA
    induction A with
    | nil => rfl
    | cons x A ih =>
      rw [List.filter_cons, List.filter_cons]
      by_cases h : x ∈ B <;> simp only [h, decide_true, decide_false, Bool.not_true, Bool.not_false,
        if_true, Bool.false_eq_true, if_false, List.length_cons] <;> omega
  omega

/-- C71: the two numbers that `pairwise_intersection` and `pairwise_union` return add up to the sizes of the
two lists. -/
theorem C71_counts (ht : TabOk tab) (hx : Valid xs) (hy : Valid ys)
    (hl : StoredAt dbg₁ xs 31 m a bx l) (hr : StoredAt dbg₂ ys 31 m b bY r)
    (hpos : a = b ∨ a + bx.length ≤ b ∨ b + bY.length ≤ a)
    (x : List Nat) (hs : x.length = 1024) (s : UScratch) (hsu : s.Ok) (out out₂ : List Nat)
    (hcap : min xs.length ys.length + 23 ≤ out.length)
    (hcap₂ : xs.length + ys.length + 23 ≤ out₂.length) :
    ∃ i u x' s' o o₂, pairwise_intersection dbg tab m l r x out 0 = .ok (i, x', o) ∧
      pairwise_union dbg m l r s out₂ 0 = .ok (u, s', o₂) ∧
      u + i = xs.length + ys.length ∧
      (i = xs.length ↔ ∀ v ∈ xs, v ∈ ys) ∧ (u = ys.length ↔ ∀ v ∈ xs, v ∈ ys) ∧
      (i = 0 ↔ ∀ v ∈ xs, v ∉ ys) ∧ (i = u ↔ xs = ys) := by
  obtain ⟨I, x', o, hI, e1, -⟩ := C10_intersection_exists (dbg := dbg) ht hx hy hl.stored hr.stored x hs
    out hcap
  obtain ⟨U, s', o₂, hU, e2, -⟩ := C11_union_exists (dbg := dbg) hx hy hl hr hpos s hsu out₂ hcap₂
  have hc := counts_sorted hx.2.1 hy.2.1 hI hU
  have nd : ∀ {L : List Nat}, L.Pairwise (· < ·) → L.Nodup := fun h => h.imp (fun h => Nat.ne_of_lt h)
  have sx : I.Sublist xs := by
    have : I = xs.filter (fun v => decide (v ∈ ys)) :=
      sorted_ext hI.1 (hx.2.1.filter _) (fun v => by rw [hI.2]; simp)
    rw [this]; exact List.filter_sublist
  have sy : I.Sublist ys := by
    have : I = ys.filter (fun v => decide (v ∈ xs)) :=
      sorted_ext hI.1 (hy.2.1.filter _) (fun v => by rw [hI.2]; simp [and_comm])
    rw [this]; exact List.filter_sublist
  have sub : I.length = xs.length ↔ ∀ v ∈ xs, v ∈ ys := by
    constructor
    · intro h v hv
      rw [← sx.eq_of_length h] at hv
      exact ((hI.2 v).mp hv).2
    · intro h
      rw [sorted_ext hI.1 hx.2.1 (fun v => (hI.2 v).trans ⟨And.left, fun hv => ⟨hv, h v hv⟩⟩)]
  have l1 := sx.length_le
  have l2 := sy.length_le
  refine ⟨_, _, x', s', o, o₂, e1, e2, hc, sub, ⟨fun h => sub.mp (by omega), fun h => ?_⟩, ?_, ?_⟩
  · have := sub.mpr h
    omega
  · rw [List.length_eq_zero_iff, List.eq_nil_iff_forall_not_mem]
    exact ⟨fun h v hv hw => h v ((hI.2 v).mpr ⟨hv, hw⟩), fun h v hv => h v ((hI.2 v).mp hv).1
      ((hI.2 v).mp hv).2⟩
  · constructor
    · intro h
      have h1 : I.length = xs.length := by omega
      have h2 : I.length = ys.length := by omega
      rw [← sx.eq_of_length h1, ← sy.eq_of_length h2]
    · intro h
      have h1 := sub.mpr (fun v hv => h ▸ hv)
      have h2 : xs.length = ys.length := by rw [h]
      omega

example : ∃ m l r i u x' s' out out₂ o o₂,
    pairwise_intersection true stdTab m l r (List.replicate 1024 0) out 0 = .ok (i, x', o) ∧
    pairwise_union true m l r UScratch.init out₂ 0 = .ok (u, s', o₂) ∧
    u + i = [3, 5, 300, 70000].length + sampleList.length := by
  obtain ⟨m, l, r, a, b, bx, bY, sl, sr, hp⟩ := stored_pair true small_valid sampleList_valid 31
  obtain ⟨i, u, x', s', o, o₂, e1, e2, h, -⟩ := C71_counts (dbg := true) stdTab_ok small_valid
    sampleList_valid sl sr (Or.inr (Or.inl hp)) (List.replicate 1024 0) List.length_replicate
    UScratch.init UScratch.init_ok (List.replicate _ 0) (List.replicate _ 0)
    (Nat.le_of_eq List.length_replicate.symm) (Nat.le_of_eq List.length_replicate.symm)
  exact ⟨m, l, r, i, u, x', s', _, _, o, o₂, e1, e2, h⟩

end Sliced
