import Verif.Props.Algebra
import Verif.Props.ManyWay
/-!
# Nested operations of any number of operands (C71)

As in Props/Algebra.lean results are built and used again; here all four operations may be nested in each
other, and `intersection` and `union_many` take any number of results.
-/
namespace Sliced

/-- `Computed dbg tab sort P Z`: some nesting of the four operations over lists that can be stored, whose
meaning is the set `P`, was evaluated from the inside to the outside and ended with the list `Z`.  Each operand
of an operation is built and stored in some memory.  Operands without an element are not stored: the caller
answers an intersection with one of them, and leaves them out of a union. -/
inductive Computed (dbg : Bool) (tab : Nat → List Nat) (sort : (SSeq → Nat) → List SSeq → List SSeq) :
    (Nat → Prop) → List Nat → Prop where
  | list {xs} : Valid xs → Computed dbg tab sort (fun v => v ∈ xs) xs
  | and {P Q X Y m l r x x' out n out'} : Computed dbg tab sort P X → Computed dbg tab sort Q Y →
      X ≠ [] → Y ≠ [] → Stored dbg X 31 m l → Stored dbg Y 31 m r →
      x.length = 1024 → min X.length Y.length + 23 ≤ out.length →
      pairwise_intersection dbg tab m l r x out 0 = .ok (n, x', out') →
      Computed dbg tab sort (fun v => P v ∧ Q v) (out'.take n)
  | or {P Q X Y m a b bx bY l r s s' out n out'} : Computed dbg tab sort P X →
      Computed dbg tab sort Q Y → X ≠ [] → Y ≠ [] → StoredAt dbg X 31 m a bx l → StoredAt dbg Y 31 m b bY r →
      (a = b ∨ a + bx.length ≤ b ∨ b + bY.length ≤ a) →
      s.Ok → X.length + Y.length + 23 ≤ out.length →
      pairwise_union dbg m l r s out 0 = .ok (n, s', out') →
      Computed dbg tab sort (fun v => P v ∨ Q v) (out'.take n)
  | all {Qs : List ((Nat → Prop) × List Nat)} {ps : List (List Nat × SSeq)} {p m s s' out n qs out'} :
      (∀ q ∈ Qs, Computed dbg tab sort q.1 q.2) → (∀ q ∈ Qs, q.2 ≠ []) →
      ps.map Prod.fst = Qs.map Prod.snd → (∀ p ∈ ps, Stored dbg p.1 0 m p.2) →
      p ∈ ps → s.Ok → p.1.length ≤ out.length →
      intersection dbg sort m (ps.map Prod.snd) s out 0 = .ok (n, qs, s', out') →
      Computed dbg tab sort (fun v => ∀ P ∈ Qs.map Prod.fst, P v) (out'.take n)
  | all_empty {Qs : List ((Nat → Prop) × List Nat)} {q} : (∀ q ∈ Qs, Computed dbg tab sort q.1 q.2) →
      q ∈ Qs → q.2 = [] → Computed dbg tab sort (fun v => ∀ P ∈ Qs.map Prod.fst, P v) []
  | any {Qs : List ((Nat → Prop) × List Nat)} {ps : List (List Nat × SSeq)} {m s s' out n out'} :
      (∀ q ∈ Qs, Computed dbg tab sort q.1 q.2) →
      ps.map Prod.fst = (Qs.map Prod.snd).filter (fun X => !X.isEmpty) →
      (∀ p ∈ ps, Stored dbg p.1 0 m p.2) → ps ≠ [] → s.Ok →
      (ps.map (fun p => p.1.length)).sum ≤ out.length →
      union_many dbg m (ps.map Prod.snd) s out 0 = .ok (n, s', out') →
      Computed dbg tab sort (fun v => ∃ P ∈ Qs.map Prod.fst, P v) (out'.take n)
  | any_empty {Qs : List ((Nat → Prop) × List Nat)} : (∀ q ∈ Qs, Computed dbg tab sort q.1 q.2) →
      (∀ q ∈ Qs, q.2 = []) → Computed dbg tab sort (fun v => ∃ P ∈ Qs.map Prod.fst, P v) []
  | and_left {P Q Y} : Computed dbg tab sort P [] → Computed dbg tab sort Q Y →
      Computed dbg tab sort (fun v => P v ∧ Q v) []
  | and_right {P Q X} : Computed dbg tab sort P X → Computed dbg tab sort Q [] →
      Computed dbg tab sort (fun v => P v ∧ Q v) []
  | or_left {P Q Y} : Computed dbg tab sort P [] → Computed dbg tab sort Q Y →
      Computed dbg tab sort (fun v => P v ∨ Q v) Y
  | or_right {P Q X} : Computed dbg tab sort P X → Computed dbg tab sort Q [] →
      Computed dbg tab sort (fun v => P v ∨ Q v) X

variable {dbg dbg₁ dbg₂ : Bool} {tab : Nat → List Nat} {sort sort₁ sort₂ : (SSeq → Nat) → List SSeq → List SSeq}
  {P Q : Nat → Prop} {Z W : List Nat}

/-- the set is enumerated, and its values can be stored -/
def Right (P : Nat → Prop) (Z : List Nat) : Prop := Enumerates Z P ∧ ∀ v, P v → v < 4294901760

theorem Right.valid (h : Right P Z) (hne : Z ≠ []) : Valid Z :=
  ⟨hne, h.1.1, fun v hv => h.2 v ((h.1.2 v).mp hv)⟩

theorem Right.none (h : Right P []) (v : Nat) : ¬ P v := fun hv => by
  have := (h.1.2 v).mpr hv
  cases this

theorem C71_many_right (ht : TabOk tab) (hsort : SortOk sort) (h : Computed dbg tab sort P Z) : Right P Z := by
  induction h with
  | list hv => exact ⟨⟨hv.2.1, fun v => Iff.rfl⟩, hv.2.2⟩
  | and h1 h2 n1 n2 sl sr hx hcap e i1 i2 =>
    obtain ⟨Z, x', o, hZ, e', w⟩ := C10_intersection_exists (dbg := dbg) ht (i1.valid n1) (i2.valid n2) sl sr
      _ hx _ hcap
    rw [e] at e'
    simp only [Except.ok.injEq, Prod.mk.injEq] at e'
    obtain ⟨rfl, rfl, rfl⟩ := e'
    rw [w]
    exact ⟨⟨hZ.1, fun v => (hZ.2 v).trans (and_congr (i1.1.2 v) (i2.1.2 v))⟩, fun v hv => i1.2 v hv.1⟩
  | or h1 h2 n1 n2 sl sr hpos hs hcap e i1 i2 =>
    obtain ⟨Z, x', o, hZ, e', w⟩ := C11_union_exists (dbg := dbg) (i1.valid n1) (i2.valid n2) sl sr hpos
      _ hs _ hcap
    rw [e] at e'
    simp only [Except.ok.injEq, Prod.mk.injEq] at e'
    obtain ⟨rfl, rfl, rfl⟩ := e'
    rw [w]
    exact ⟨⟨hZ.1, fun v => (hZ.2 v).trans (or_congr (i1.1.2 v) (i2.1.2 v))⟩,
      fun v hv => hv.elim (i1.2 v) (i2.2 v)⟩
  | @all Qs ps p m s s' out n qs out' h1 hne hm hst hp hs hcap e ih =>
    have back : ∀ p ∈ ps, ∃ q ∈ Qs, q.2 = p.1 := fun p hp => by
      have : p.1 ∈ Qs.map Prod.snd := by rw [← hm]; exact List.mem_map.mpr ⟨p, hp, rfl⟩
      exact List.mem_map.mp this
    have hps : StoredAll dbg 0 m ps := fun p hp => by
      obtain ⟨q, hq, e1⟩ := back p hp
      exact ⟨e1 ▸ (ih q hq).valid (hne q hq), hst p hp⟩
    obtain ⟨Z, qs', t, o, hZ, e', w⟩ := C12_intersection_exists (dbg := dbg) hsort hps hp s hs out hcap
    rw [e] at e'
    simp only [Except.ok.injEq, Prod.mk.injEq] at e'
    obtain ⟨rfl, rfl, rfl, rfl⟩ := e'
    rw [w]
    obtain ⟨q0, hq0, -⟩ := back p hp
    refine ⟨⟨hZ.1, fun v => (hZ.2 v).trans ⟨fun h P hP => ?_, fun h p hp => ?_⟩⟩, fun v hv => ?_⟩
    · obtain ⟨q, hq, rfl⟩ := List.mem_map.mp hP
      have : q.2 ∈ ps.map Prod.fst := by rw [hm]; exact List.mem_map.mpr ⟨q, hq, rfl⟩
      obtain ⟨p', hp', e1⟩ := List.mem_map.mp this
      exact ((ih q hq).1.2 v).mp (e1 ▸ h p' hp')
    · obtain ⟨q, hq, e1⟩ := back p hp
      rw [← e1]
      exact ((ih q hq).1.2 v).mpr (h q.1 (List.mem_map.mpr ⟨q, hq, rfl⟩))
    · exact (ih q0 hq0).2 v (hv q0.1 (List.mem_map.mpr ⟨q0, hq0, rfl⟩))
  | @all_empty Qs q h1 hq e ih =>
    have hn := e ▸ ih q hq
    have hm : q.1 ∈ Qs.map Prod.fst := List.mem_map.mpr ⟨q, hq, rfl⟩
    exact ⟨⟨List.Pairwise.nil, fun v => ⟨fun h => (by cases h), fun h => absurd (h _ hm) (hn.none v)⟩⟩,
      fun v hv => hn.2 v (hv _ hm)⟩
  | @any Qs ps m s s' out n out' h1 hm hst hne hs hcap e ih =>
    have back : ∀ p ∈ ps, p.1 ≠ [] ∧ ∃ q ∈ Qs, q.2 = p.1 := fun p hp => by
      have : p.1 ∈ (Qs.map Prod.snd).filter (fun X => !X.isEmpty) := by
        rw [← hm]; exact List.mem_map.mpr ⟨p, hp, rfl⟩
      obtain ⟨g1, g2⟩ := List.mem_filter.mp this
      refine ⟨fun h0 => ?_, List.mem_map.mp g1⟩
      rw [h0] at g2
      cases g2
    have hps : StoredAll dbg 0 m ps := fun p hp => by
      obtain ⟨h0, q, hq, e1⟩ := back p hp
      exact ⟨e1 ▸ (ih q hq).valid (fun h => h0 (e1 ▸ h)), hst p hp⟩
    obtain ⟨Z, t, o, hZ, e', w⟩ := C13_union_exists (dbg := dbg) hps hne s hs out hcap
    rw [e] at e'
    simp only [Except.ok.injEq, Prod.mk.injEq] at e'
    obtain ⟨rfl, rfl, rfl⟩ := e'
    rw [w]
    refine ⟨⟨hZ.1, fun v => (hZ.2 v).trans ⟨?_, ?_⟩⟩, ?_⟩
    · rintro ⟨p, hp, hv⟩
      obtain ⟨-, q, hq, e1⟩ := back p hp
      exact ⟨q.1, List.mem_map.mpr ⟨q, hq, rfl⟩, ((ih q hq).1.2 v).mp (e1 ▸ hv)⟩
    · rintro ⟨P, hP, hv⟩
      obtain ⟨q, hq, rfl⟩ := List.mem_map.mp hP
      have hv' := ((ih q hq).1.2 v).mpr hv
      have : q.2 ∈ ps.map Prod.fst := by
        rw [hm]
        refine List.mem_filter.mpr ⟨List.mem_map.mpr ⟨q, hq, rfl⟩, ?_⟩
        cases hq2 : q.2 with
        | nil => rw [hq2] at hv'; cases hv'
        | cons a L => rfl
      obtain ⟨p', hp', e1⟩ := List.mem_map.mp this
      exact ⟨p', hp', e1 ▸ hv'⟩
    · rintro v ⟨P, hP, hv⟩
      obtain ⟨q, hq, rfl⟩ := List.mem_map.mp hP
      exact (ih q hq).2 v hv
  | @any_empty Qs h1 h0 ih =>
    have hn : ∀ v, ¬ ∃ P ∈ Qs.map Prod.fst, P v := by
      rintro v ⟨P, hP, hv⟩
      obtain ⟨q, hq, rfl⟩ := List.mem_map.mp hP
      exact (h0 q hq ▸ ih q hq).none v hv
    exact ⟨⟨List.Pairwise.nil, fun v => ⟨fun h => (by cases h), fun h => absurd h (hn v)⟩⟩,
      fun v hv => absurd hv (hn v)⟩
  | and_left h1 h2 i1 i2 =>
    exact ⟨⟨List.Pairwise.nil, fun v => ⟨fun h => (by cases h), fun h => absurd h.1 (i1.none v)⟩⟩,
      fun v hv => i1.2 v hv.1⟩
  | and_right h1 h2 i1 i2 =>
    exact ⟨⟨List.Pairwise.nil, fun v => ⟨fun h => (by cases h), fun h => absurd h.2 (i2.none v)⟩⟩,
      fun v hv => i1.2 v hv.1⟩
  | or_left h1 h2 i1 i2 =>
    exact ⟨⟨i2.1.1, fun v => (i2.1.2 v).trans ⟨Or.inr, fun h => h.elim (fun h => absurd h (i1.none v)) id⟩⟩,
      fun v hv => hv.elim (i1.2 v) (i2.2 v)⟩
  | or_right h1 h2 i1 i2 =>
    exact ⟨⟨i1.1.1, fun v => (i1.1.2 v).trans ⟨Or.inl, fun h => h.elim id (fun h => absurd h (i2.none v))⟩⟩,
      fun v hv => hv.elim (i1.2 v) (i2.2 v)⟩

/-- C71: however the four operations are nested, the result is in increasing order the set that the nesting
means. -/
theorem C71_many (ht : TabOk tab) (hsort : SortOk sort) (h : Computed dbg tab sort P Z) : Enumerates Z P :=
  (C71_many_right ht hsort h).1

/-- C71: nestings with the same meaning give the same list, with whatever orders of equally long operands. -/
theorem C71_many_laws (ht : TabOk tab) (hsort₁ : SortOk sort₁) (hsort₂ : SortOk sort₂)
    (h1 : Computed dbg₁ tab sort₁ P Z) (h2 : Computed dbg₂ tab sort₂ Q W) (same : ∀ v, P v ↔ Q v) : Z = W := by
  have i1 := C71_many ht hsort₁ h1
  have i2 := C71_many ht hsort₂ h2
  exact i1.unique ⟨i2.1, fun v => (i2.2 v).trans (same v).symm⟩

/-! ## No nesting fails -/

theorem computed_operands {Ps : List (Nat → Prop)} (h : ∀ P ∈ Ps, ∃ X, Computed dbg tab sort P X) :
    ∃ Qs : List ((Nat → Prop) × List Nat), Qs.map Prod.fst = Ps ∧ ∀ q ∈ Qs, Computed dbg tab sort q.1 q.2 := by
  induction Ps with
  | nil => exact ⟨[], rfl, fun q hq => by cases hq⟩
  | cons P Ps ih =>
    obtain ⟨Qs, h1, h2⟩ := ih (fun R hR => h R (List.mem_cons_of_mem _ hR))
    obtain ⟨X, hX⟩ := h P (List.mem_cons_self ..)
    refine ⟨(P, X) :: Qs, by rw [List.map_cons, h1], fun q hq => ?_⟩
    rcases List.mem_cons.mp hq with rfl | hq
    · exact hX
    · exact h2 q hq

/-- C71: an intersection of any positive number of results can be computed. -/
theorem C71_all_exists (ht : TabOk tab) (hsort : SortOk sort) {Ps : List (Nat → Prop)} (hne : Ps ≠ [])
    (h : ∀ P ∈ Ps, ∃ X, Computed dbg tab sort P X) :
    ∃ Z, Computed dbg tab sort (fun v => ∀ P ∈ Ps, P v) Z := by
  obtain ⟨Qs, rfl, h2⟩ := computed_operands h
  by_cases h0 : ∃ q ∈ Qs, q.2 = []
  · obtain ⟨q, hq, e⟩ := h0
    exact ⟨_, .all_empty h2 hq e⟩
  · have h0' : ∀ q ∈ Qs, q.2 ≠ [] := fun q hq e => h0 ⟨q, hq, e⟩
    obtain ⟨m, ps, hm, hst⟩ := stored_many dbg 0 (Qs.map Prod.snd) (fun X hX => by
      obtain ⟨q, hq, rfl⟩ := List.mem_map.mp hX
      exact (C71_many_right ht hsort (h2 q hq)).valid (h0' q hq))
    cases hps : ps with
    | nil =>
      rw [hps, List.map_nil] at hm
      exact absurd (by rw [List.map_eq_nil_iff.mp hm.symm]; rfl) hne
    | cons p rest =>
      have hp : p ∈ ps := by rw [hps]; exact List.mem_cons_self ..
      obtain ⟨Z, qs', t, o, hZ, e', w⟩ := C12_intersection_exists (dbg := dbg) hsort hst hp IScratch.init
        IScratch.init_ok (List.replicate p.1.length 0) (by rw [List.length_replicate]; exact Nat.le_refl _)
      exact ⟨_, .all h2 h0' hm (fun p hp => (hst p hp).2) hp IScratch.init_ok
        (by rw [List.length_replicate]; exact Nat.le_refl _) e'⟩

/-- C71: a union of any number of results can be computed. -/
theorem C71_any_exists (ht : TabOk tab) (hsort : SortOk sort) {Ps : List (Nat → Prop)}
    (h : ∀ P ∈ Ps, ∃ X, Computed dbg tab sort P X) :
    ∃ Z, Computed dbg tab sort (fun v => ∃ P ∈ Ps, P v) Z := by
  obtain ⟨Qs, rfl, h2⟩ := computed_operands h
  obtain ⟨m, ps, hm, hst⟩ := stored_many dbg 0 ((Qs.map Prod.snd).filter (fun X => !X.isEmpty))
    (fun X hX => by
      obtain ⟨g1, g2⟩ := List.mem_filter.mp hX
      obtain ⟨q, hq, rfl⟩ := List.mem_map.mp g1
      refine (C71_many_right ht hsort (h2 q hq)).valid (fun h0 => ?_)
      rw [h0] at g2
      cases g2)
  by_cases hne : ps = []
  · refine ⟨_, .any_empty h2 (fun q hq => ?_)⟩
    rw [hne, List.map_nil] at hm
    cases hq2 : q.2 with
    | nil => rfl
    | cons a L =>
      have : q.2 ∈ (Qs.map Prod.snd).filter (fun X => !X.isEmpty) :=
        List.mem_filter.mpr ⟨List.mem_map.mpr ⟨q, hq, rfl⟩, by rw [hq2]; rfl⟩
      rw [← hm] at this
      cases this
  · obtain ⟨Z, t, o, hZ, e', w⟩ := C13_union_exists (dbg := dbg) hst hne MScratch.init MScratch.init_ok
      (List.replicate (ps.map (fun p => p.1.length)).sum 0)
      (by rw [List.length_replicate]; exact Nat.le_refl _)
    exact ⟨_, .any h2 hm (fun p hp => (hst p hp).2) hne MScratch.init_ok
      (by rw [List.length_replicate]; exact Nat.le_refl _) e'⟩

/-- C71: the same for the operations of two operands. -/
theorem C71_pair_exists (ht : TabOk tab) (hsort : SortOk sort) {X Y : List Nat}
    (h1 : Computed dbg tab sort P X) (h2 : Computed dbg tab sort Q Y) :
    (∃ Z, Computed dbg tab sort (fun v => P v ∧ Q v) Z) ∧ ∃ Z, Computed dbg tab sort (fun v => P v ∨ Q v) Z := by
  by_cases n1 : X = []
  · subst n1; exact ⟨⟨_, .and_left h1 h2⟩, _, .or_left h1 h2⟩
  by_cases n2 : Y = []
  · subst n2; exact ⟨⟨_, .and_right h1 h2⟩, _, .or_right h1 h2⟩
  have v1 := (C71_many_right ht hsort h1).valid n1
  have v2 := (C71_many_right ht hsort h2).valid n2
  obtain ⟨m, l, r, a, b, bx, bY, sl, sr, hp⟩ := stored_pair dbg v1 v2 31
  obtain ⟨Z, x', o, -, e, -⟩ := C10_intersection_exists (dbg := dbg) ht v1 v2 sl.stored sr.stored
    (List.replicate 1024 0) List.length_replicate
    (List.replicate (min X.length Y.length + 23) 0) (by rw [List.length_replicate]; exact Nat.le_refl _)
  obtain ⟨Z₂, s', o₂, -, e₂, -⟩ := C11_union_exists (dbg := dbg) v1 v2 sl sr (Or.inr (Or.inl hp))
    UScratch.init UScratch.init_ok
    (List.replicate (X.length + Y.length + 23) 0) (by rw [List.length_replicate]; exact Nat.le_refl _)
  exact ⟨⟨_, .and h1 h2 n1 n2 sl.stored sr.stored List.length_replicate
      (by rw [List.length_replicate]; exact Nat.le_refl _) e⟩,
    _, .or h1 h2 n1 n2 sl sr (Or.inr (Or.inl hp)) UScratch.init_ok
      (by rw [List.length_replicate]; exact Nat.le_refl _) e₂⟩

/-- C71: the general distributive law: a list and the union of any lists, or the union of its intersections
with each. -/
theorem C71_many_distributive (ht : TabOk tab) (hsort₁ : SortOk sort₁) (hsort₂ : SortOk sort₂) {A : List Nat}
    {Bs : List (List Nat)}
    (h1 : Computed dbg₁ tab sort₁ (fun v => v ∈ A ∧ ∃ P ∈ Bs.map (fun B v => v ∈ B), P v) Z)
    (h2 : Computed dbg₂ tab sort₂ (fun v => ∃ P ∈ Bs.map (fun B v => v ∈ A ∧ v ∈ B), P v) W) : Z = W := by
  refine C71_many_laws ht hsort₁ hsort₂ h1 h2 (fun v => ?_)
  constructor
  · rintro ⟨hA, P, hP, hv⟩
    obtain ⟨B, hB, rfl⟩ := List.mem_map.mp hP
    exact ⟨_, List.mem_map.mpr ⟨B, hB, rfl⟩, hA, hv⟩
  · rintro ⟨P, hP, hv⟩
    obtain ⟨B, hB, rfl⟩ := List.mem_map.mp hP
    exact ⟨hv.1, _, List.mem_map.mpr ⟨B, hB, rfl⟩, hv.2⟩

/-! ## Examples -/

/-- both sides of the distributive law with three lists can be computed, and are equal -/
example : ∃ Z, Computed true stdTab stdSort (fun v => v ∈ [3, 5, 300, 70000] ∧
      ∃ P ∈ [sampleList, [70000], [3, 9]].map (fun B v => v ∈ B), P v) Z ∧
    Computed false stdTab stdSort
      (fun v => ∃ P ∈ [sampleList, [70000], [3, 9]].map (fun B v => v ∈ [3, 5, 300, 70000] ∧ v ∈ B), P v) Z ∧
    70000 ∈ Z ∧ 9 ∉ Z := by
  have hxs := sampleList_valid
  generalize sampleList = xs at hxs ⊢
  have hB : ∀ B ∈ [xs, [70000], [3, 9]], Valid B := by
    intro B h
    rcases List.mem_cons.mp h with rfl | h
    · exact hxs
    · rcases List.mem_cons.mp h with rfl | h
      · exact ⟨by simp, by simp, by simp⟩
      · rw [List.mem_singleton.mp h]; exact ⟨by simp, by simp, by simp⟩
  obtain ⟨U, hU⟩ := C71_any_exists (dbg := true) (sort := stdSort) stdTab_ok stdSort_ok
    (Ps := [xs, [70000], [3, 9]].map (fun B v => v ∈ B)) (fun P hP => by
      obtain ⟨B, hB', rfl⟩ := List.mem_map.mp hP
      exact ⟨B, .list (hB B hB')⟩)
  obtain ⟨⟨Z, hZ⟩, -⟩ := C71_pair_exists stdTab_ok stdSort_ok
    (Computed.list (dbg := true) (tab := stdTab) (sort := stdSort) small_valid) hU
  obtain ⟨W, hW⟩ := C71_any_exists (dbg := false) (sort := stdSort) stdTab_ok stdSort_ok
    (Ps := [xs, [70000], [3, 9]].map (fun B v => v ∈ [3, 5, 300, 70000] ∧ v ∈ B)) (fun P hP => by
      obtain ⟨B, hB', rfl⟩ := List.mem_map.mp hP
      exact (C71_pair_exists stdTab_ok stdSort_ok (.list small_valid) (.list (hB B hB'))).1)
  have hZW := C71_many_distributive stdTab_ok stdSort_ok stdSort_ok hZ hW
  subst hZW
  have hE := C71_many stdTab_ok stdSort_ok hZ
  refine ⟨Z, hZ, hW, (hE.2 _).mpr ⟨by simp, _, List.mem_map.mpr ⟨[70000], by simp, rfl⟩, by simp⟩, fun h => ?_⟩
  have := ((hE.2 9).mp h).1
  simp at this

/-- an intersection of three results, one of them an intersection -/
example : ∃ Z, Computed true stdTab stdSort (fun v => ∀ P ∈ [(fun v => v ∈ [3, 5, 300, 70000]),
    (fun v => v ∈ [5, 70000] ∧ v ∈ [3, 5]), (fun v => v ∈ [5])], P v) Z ∧ Z = [5] := by
  have v1 : Valid [5, 70000] := ⟨by simp, by simp, by simp⟩
  have v2 : Valid [3, 5] := ⟨by simp, by simp, by simp⟩
  have v3 : Valid [5] := ⟨by simp, by simp, by simp⟩
  obtain ⟨Z, h⟩ := C71_all_exists (dbg := true) (sort := stdSort) stdTab_ok stdSort_ok
    (Ps := [(fun v => v ∈ [3, 5, 300, 70000]), (fun v => v ∈ [5, 70000] ∧ v ∈ [3, 5]), (fun v => v ∈ [5])])
    (by simp) (fun P hP => by
      rcases List.mem_cons.mp hP with rfl | hP
      · exact ⟨_, .list small_valid⟩
      · rcases List.mem_cons.mp hP with rfl | hP
        · exact (C71_pair_exists stdTab_ok stdSort_ok (.list v1) (.list v2)).1
        · rw [List.mem_singleton.mp hP]; exact ⟨_, .list v3⟩)
  refine ⟨Z, h, (C71_many stdTab_ok stdSort_ok h).unique ⟨by simp, fun v => ?_⟩⟩
  simp
  omega

end Sliced
