import Verif.Props.SetOps
import Verif.Proof.UnionMany
import Verif.Proof.IntersectionMany
/-!
# Set operations on many sequences

C12, C13, the many-way part of C14, C30, C31.

`ps` lists the stored lists with their sequence objects.  The many-way operations go through
bitmaps: they need no readable bytes after the encodings (`pad` is arbitrary, so it may be 0) and no
spare slots after the result.
-/
namespace Sliced

variable {dbg dbg' : Bool} {pad : Nat} {m : Mem} {ps : List (List Nat × SSeq)} {Z : List Nat}

/-- The contract of `std::sort` with the comparator `key a < key b`. -/
def SortOk (sort : (SSeq → Nat) → List SSeq → List SSeq) : Prop :=
  ∀ key l, (sort key l).Perm l ∧ (sort key l).Pairwise (fun a b => key a ≤ key b)

/-- There are such functions. -/
def stdSort (key : SSeq → Nat) (l : List SSeq) : List SSeq :=
  l.mergeSort (fun a b => decide (key a ≤ key b))

theorem stdSort_ok : SortOk stdSort := by
  intro key l
  refine ⟨List.mergeSort_perm _ _, ?_⟩
  have := List.pairwise_mergeSort (le := fun a b => decide (key a ≤ key b))
    (fun a b c h1 h2 => by simp at h1 h2 ⊢; omega) (fun a b => by simp; omega) l
  exact this.imp (fun h => of_decide_eq_true h)

theorem perm_lift {α β : Type} {f : α → β} {L M : List β} (h : L.Perm M) :
    ∀ {ps : List α}, ps.map f = M → ∃ qs : List α, qs.Perm ps ∧ qs.map f = L := by
  induction h with
  | nil =>
    intro ps h
    exact ⟨ps, List.Perm.refl _, h⟩
  | cons a _ ih =>
    intro ps h
    cases ps with
    | nil => simp at h
    | cons p ps =>
      simp only [List.map_cons, List.cons.injEq] at h
      obtain ⟨qs, h1, h2⟩ := ih h.2
      exact ⟨p :: qs, h1.cons p, by simp [h.1, h2]⟩
  | swap a b l =>
    intro ps h
    match ps, h with
    | p :: q :: ps, h =>
      simp only [List.map_cons, List.cons.injEq] at h
      exact ⟨q :: p :: ps, List.Perm.swap p q ps, by simp [h.1, h.2.1, h.2.2]⟩
  | trans _ _ ih1 ih2 =>
    intro ps h
    obtain ⟨qs, h1, h2⟩ := ih2 h
    obtain ⟨rs, h3, h4⟩ := ih1 h2
    exact ⟨rs, h3.trans h1, h4⟩

theorem StoredAll.seqsAt (h : StoredAll dbg pad m ps) :
    SeqsAt pad m (ps.map Prod.snd) (ps.map (fun p => chunksOf p.1)) := by
  induction ps with
  | nil => trivial
  | cons p ps ih =>
    obtain ⟨h1, h2⟩ := h p (List.mem_cons_self ..)
    exact ⟨h2.repr h1, ih (fun q hq => h q (List.mem_cons_of_mem _ hq))⟩

theorem StoredAll.perm {qs : List (List Nat × SSeq)} (h : StoredAll dbg pad m ps)
    (hp : qs.Perm ps) : StoredAll dbg pad m qs := fun q hq => h q (hp.mem_iff.mp hq)

theorem mapM_cardinality (h : StoredAll dbg pad m ps) :
    (ps.map Prod.snd).mapM (fun q => do let c ← q.cardinality m; return (q, c))
      = (.ok (ps.map (fun p => (p.2, p.1.length))) : Res (List (SSeq × Nat))) := by
  induction ps with
  | nil => rfl
  | cons p ps ih =>
    obtain ⟨h1, h2⟩ := h p (List.mem_cons_self ..)
    have ih := ih (fun q hq => h q (List.mem_cons_of_mem _ hq))
    rw [List.map_cons, List.mapM_cons, ih, (C03_cardinality h1 h2).1]
    rfl

theorem key_cardinality (h : StoredAll dbg pad m ps) {p : List Nat × SSeq} (hp : p ∈ ps) :
    (((ps.map (fun p => (p.2, p.1.length))).find? (fun q => q.1 = p.2)).map Prod.snd).getD 0
      = p.1.length := by
  cases e : (ps.map (fun p => (p.2, p.1.length))).find? (fun q => q.1 = p.2) with
  | none =>
    have := List.find?_eq_none.mp e (p.2, p.1.length) (List.mem_map.mpr ⟨p, hp, rfl⟩)
    simp at this
  | some q =>
    have h1 : q.1 = p.2 := of_decide_eq_true (List.find?_some (p := fun q : SSeq × Nat => decide (q.1 = p.2)) e)
    obtain ⟨r, hr, rfl⟩ := List.mem_map.mp (List.mem_of_find?_eq_some e)
    have hr' := h r hr
    have hp' := h p hp
    have c1 := (C03_cardinality hr'.1 hr'.2).1
    have c2 := (C03_cardinality hp'.1 hp'.2).1
    simp only at h1
    rw [h1] at c1
    simpa using Except.ok.inj (c1.symm.trans c2)

/-- C12, C31: with `Z` the increasing enumeration of the elements common to all lists, `intersection`
returns `|Z|` and writes `Z` at any position of any buffer with room for it (no spare slots), whatever
the static buffers hold and whatever `std::sort` does with ties.  The caller's vector ends up as a
permutation of what it was, ordered by cardinality. -/
theorem C12_intersection {sort : (SSeq → Nat) → List SSeq → List SSeq} (hsort : SortOk sort)
    (hps : StoredAll dbg' pad m ps) (hne : ps ≠ [])
    (hZ : Enumerates Z (fun v => ∀ p ∈ ps, v ∈ p.1)) (s : IScratch) (hs : s.Ok)
    (out : List Nat) (k : Nat) (hcap : k + Z.length ≤ out.length) :
    ∃ (qs : List (List Nat × SSeq)) (s' : IScratch) (out' : List Nat),
      intersection dbg sort m (ps.map Prod.snd) s out k
        = .ok (Z.length, qs.map Prod.snd, s', out') ∧
      qs.Perm ps ∧ qs.Pairwise (fun a b => a.1.length ≤ b.1.length) ∧ s'.Ok ∧
      Wrote out k Z 0 out' := by
  let key := fun q => (((ps.map (fun p => (p.2, p.1.length))).find? (fun p => p.1 = q)).map
    Prod.snd).getD 0
  obtain ⟨hp, hk⟩ := hsort key (ps.map Prod.snd)
  obtain ⟨qs, hq, eq⟩ := perm_lift hp rfl
  have hqs := hps.perm hq
  have hqne : qs ≠ [] := by
    intro h
    rw [h] at hq
    exact hne (List.nil_perm.mp hq)
  have hZ' : Enumerates Z (fun v => ∀ cs ∈ qs.map (fun p => chunksOf p.1), v ∈ seqElems cs) := by
    refine ⟨hZ.1, fun v => (hZ.2 v).trans ?_⟩
    constructor
    · intro h cs hcs
      obtain ⟨p, hp, rfl⟩ := List.mem_map.mp hcs
      rw [seqElems_chunksOf (hqs p hp).1]
      exact h p (hq.mem_iff.mp hp)
    · intro h p hp
      have hp := hq.mem_iff.mpr hp
      have := h _ (List.mem_map.mpr ⟨p, hp, rfl⟩)
      rwa [seqElems_chunksOf (hqs p hp).1] at this
  obtain ⟨s', o, e, hs', w⟩ := intersection_sorted_spec (dbg := dbg) (s := s) (by simpa using hqne)
    hqs.seqsAt hs hZ' hcap
  refine ⟨qs, s', o, ?_, hq, ?_, hs', w⟩
  · unfold intersection
    rw [mapM_cardinality hps]
    simp only [ok_bind]
    rw [show sort (fun q => (((ps.map (fun p => (p.2, p.1.length))).find?
      (fun p => p.1 = q)).map Prod.snd).getD 0) (ps.map Prod.snd) = qs.map Prod.snd from eq.symm]
    simp only [e, ok_bind, pure_ok]
  · rw [← eq, List.pairwise_map] at hk
    refine hk.imp_of_mem ?_
    intro a b ha hb hab
    have k1 := key_cardinality hps (hq.mem_iff.mp ha)
    have k2 := key_cardinality hps (hq.mem_iff.mp hb)
    show a.1.length ≤ b.1.length
    rw [← k1, ← k2]
    exact hab

/-- The elements common to all lists, in order. -/
def interAll : List (List Nat) → List Nat
  | [] => []
  | [xs] => xs
  | xs :: ys :: xss => inter xs (interAll (ys :: xss))

theorem interAll_spec (h : ∀ p ∈ ps, Valid p.1) (hne : ps ≠ []) :
    Enumerates (interAll (ps.map Prod.fst)) (fun v => ∀ p ∈ ps, v ∈ p.1) := by
  induction ps with
  | nil => exact absurd rfl hne
  | cons p ps ih =>
    have hp := h p (List.mem_cons_self ..)
    cases ps with
    | nil => exact ⟨hp.2.1, fun v => by simp [interAll]⟩
    | cons q ps =>
      obtain ⟨h1, h2⟩ := ih (fun r hr => h r (List.mem_cons_of_mem _ hr)) (by simp)
      refine ⟨inter_sorted hp.2.1, fun v => ?_⟩
      rw [List.map_cons, List.map_cons, interAll, mem_inter, ← List.map_cons, h2 v]
      simp

/-- C12: such a `Z` exists and is no longer than any of the lists. -/
theorem C12_intersection_exists {sort : (SSeq → Nat) → List SSeq → List SSeq} (hsort : SortOk sort)
    (hps : StoredAll dbg' pad m ps) {p : List Nat × SSeq} (hp : p ∈ ps) (s : IScratch) (hs : s.Ok)
    (out : List Nat) (hcap : p.1.length ≤ out.length) :
    ∃ Z qs s' out', Enumerates Z (fun v => ∀ p ∈ ps, v ∈ p.1) ∧
      intersection dbg sort m (ps.map Prod.snd) s out 0 = .ok (Z.length, qs, s', out') ∧
      out'.take Z.length = Z := by
  have hne : ps ≠ [] := List.ne_nil_of_mem hp
  have hZ := interAll_spec (fun p h => (hps p h).1) hne
  have hl : (interAll (ps.map Prod.fst)).length ≤ p.1.length := by
    have : interAll (ps.map Prod.fst) = inter (interAll (ps.map Prod.fst)) p.1 := by
      apply sorted_ext hZ.1 (inter_sorted hZ.1)
      intro v
      rw [mem_inter]
      exact ⟨fun h => ⟨h, (hZ.2 v).mp h p hp⟩, fun h => h.1⟩
    rw [this, inter_comm hZ.1 (hps p hp).1.2.1]
    exact inter_length_le _ _
  obtain ⟨qs, s', o, e, -, -, -, w⟩ := C12_intersection (dbg := dbg) hsort hps hne hZ s hs out 0
    (by omega)
  exact ⟨_, _, s', o, hZ, e, w.take_zero⟩

/-- C12: no sequences at all is not a valid call: `iterators[0]` does not exist. -/
theorem C12_empty_ub {sort : (SSeq → Nat) → List SSeq → List SSeq} (hsort : SortOk sort)
    (s : IScratch) (out : List Nat) (k : Nat) :
    intersection dbg sort m [] s out k = .error .ub := by
  have : ∀ key, sort key [] = [] := fun key => List.perm_nil.mp (hsort key []).1
  unfold intersection
  simp only [List.mapM_nil, pure_ok, ok_bind, this]
  rfl

/-- C13: with `Z` the increasing enumeration of the elements of all lists, `union_many` returns `|Z|`
and writes `Z` at any position of any buffer with room for it (no spare slots), whatever the static
buffers hold. -/
theorem C13_union (hps : StoredAll dbg' pad m ps) (hne : ps ≠ [])
    (hZ : Enumerates Z (fun v => ∃ p ∈ ps, v ∈ p.1)) (s : MScratch) (hs : s.Ok)
    (out : List Nat) (k : Nat) (hcap : k + Z.length ≤ out.length) :
    ∃ s' out', union_many dbg m (ps.map Prod.snd) s out k = .ok (Z.length, s', out') ∧
      s'.Ok ∧ Wrote out k Z 0 out' := by
  refine union_many_spec (by simpa using hne) hps.seqsAt hs ⟨hZ.1, fun v => (hZ.2 v).trans ?_⟩ hcap
  constructor
  · rintro ⟨p, hp, hv⟩
    exact ⟨_, List.mem_map.mpr ⟨p, hp, rfl⟩, by rw [seqElems_chunksOf (hps p hp).1]; exact hv⟩
  · rintro ⟨cs, hcs, hv⟩
    obtain ⟨p, hp, rfl⟩ := List.mem_map.mp hcs
    rw [seqElems_chunksOf (hps p hp).1] at hv
    exact ⟨p, hp, hv⟩

/-- The elements of all lists, in order. -/
def uniAll : List (List Nat) → List Nat
  | [] => []
  | xs :: xss => uni xs (uniAll xss)

theorem uniAll_spec (h : ∀ p ∈ ps, Valid p.1) :
    Enumerates (uniAll (ps.map Prod.fst)) (fun v => ∃ p ∈ ps, v ∈ p.1) := by
  induction ps with
  | nil => exact ⟨List.Pairwise.nil, fun v => by simp [uniAll]⟩
  | cons p ps ih =>
    obtain ⟨h1, h2⟩ := ih (fun r hr => h r (List.mem_cons_of_mem _ hr))
    refine ⟨uni_sorted (h p (List.mem_cons_self ..)).2.1 h1, fun v => ?_⟩
    rw [List.map_cons, uniAll, mem_uni, h2 v]
    simp

theorem uniAll_length_le (xss : List (List Nat)) : (uniAll xss).length ≤ (xss.map List.length).sum := by
  induction xss with
  | nil => simp [uniAll]
  | cons xs xss ih =>
    have := uni_length_le xs (uniAll xss)
    simp only [uniAll, List.map_cons, List.sum_cons]
    omega

/-- C13: such a `Z` exists, and a buffer as long as all lists together is big enough. -/
theorem C13_union_exists (hps : StoredAll dbg' pad m ps) (hne : ps ≠ []) (s : MScratch) (hs : s.Ok)
    (out : List Nat) (hcap : (ps.map (fun p => p.1.length)).sum ≤ out.length) :
    ∃ Z s' out', Enumerates Z (fun v => ∃ p ∈ ps, v ∈ p.1) ∧
      union_many dbg m (ps.map Prod.snd) s out 0 = .ok (Z.length, s', out') ∧
      out'.take Z.length = Z := by
  have hZ := uniAll_spec (fun p h => (hps p h).1)
  have hl := uniAll_length_le (ps.map Prod.fst)
  rw [List.map_map] at hl
  have hl : (uniAll (ps.map Prod.fst)).length ≤ (ps.map (fun p => p.1.length)).sum := hl
  obtain ⟨s', o, e, -, w⟩ := C13_union (dbg := dbg) hps hne hZ s hs out 0 (by omega)
  exact ⟨_, s', o, hZ, e, w.take_zero⟩

/-- C13: no sequences at all is not a valid call: the end of an empty range is dereferenced. -/
theorem C13_empty_ub (s : MScratch) (out : List Nat) (k : Nat) :
    union_many dbg m [] s out k = .error .ub := rfl

/-! ## The scratch buffers at program start -/

def IScratch.init : IScratch :=
  ⟨List.replicate 65536 0, List.replicate 1024 0, List.replicate 1024 0⟩

theorem IScratch.init_ok : IScratch.init.Ok :=
  ⟨List.length_replicate, ⟨List.length_replicate, fun w hw => by
    rw [List.eq_of_mem_replicate hw]; omega⟩, List.length_replicate⟩

def MScratch.init : MScratch := ⟨List.replicate 1024 0, List.replicate 1024 0⟩

theorem MScratch.init_ok : MScratch.init.Ok :=
  ⟨⟨List.length_replicate, fun w hw => by rw [List.eq_of_mem_replicate hw]; omega⟩,
    List.length_replicate⟩

theorem threeLists_valid : ∀ xs ∈ [sampleList, [3, 5, 300, 70000], [3, 5, 300, 70000]], Valid xs := by
  intro xs h
  rcases List.mem_cons.mp h with h | h
  · rw [h]; exact sampleList_valid
  · rcases List.mem_cons.mp h with h | h
    · rw [h]; exact small_valid
    · rw [List.mem_singleton.mp h]; exact small_valid

/-- Non-trivial instances. -/
example : ∃ m ps Z qs s' out', ps.map Prod.fst = [sampleList, [3, 5, 300, 70000], [3, 5, 300, 70000]] ∧
    StoredAll true 0 m ps ∧ Enumerates Z (fun v => ∀ p ∈ ps, v ∈ p.1) ∧
    intersection false stdSort m (ps.map Prod.snd) IScratch.init (List.replicate 4 0) 0
      = .ok (Z.length, qs, s', out') ∧ out'.take Z.length = Z := by
  obtain ⟨m, ps, e, h⟩ := stored_many true 0 _ threeLists_valid
  obtain ⟨p, hp, e2⟩ : ∃ p ∈ ps, p.1 = [3, 5, 300, 70000] := by
    have : [3, 5, 300, 70000] ∈ ps.map Prod.fst := by
      rw [e]; exact List.mem_cons_of_mem _ (List.mem_cons_self ..)
    obtain ⟨p, hp, e2⟩ := List.mem_map.mp this
    exact ⟨p, hp, e2⟩
  obtain ⟨Z, qs, s', o, hZ, e3, w⟩ := C12_intersection_exists (dbg := false) stdSort_ok h hp
    IScratch.init IScratch.init_ok (List.replicate 4 0)
    (by rw [e2]; simp only [List.length_cons, List.length_nil, List.length_replicate]; omega)
  exact ⟨m, ps, Z, qs, s', o, e, h, hZ, e3, w⟩

example : ∃ m ps Z s' out', ps.map Prod.fst = [sampleList, [3, 5, 300, 70000], [3, 5, 300, 70000]] ∧
    StoredAll true 0 m ps ∧ Enumerates Z (fun v => ∃ p ∈ ps, v ∈ p.1) ∧
    union_many false m (ps.map Prod.snd) MScratch.init (List.replicate (sampleList.length + 8) 0) 0
      = .ok (Z.length, s', out') ∧ out'.take Z.length = Z := by
  obtain ⟨m, ps, e, h⟩ := stored_many true 0 _ threeLists_valid
  have hne : ps ≠ [] := by intro h; rw [h] at e; simp at e
  have hl : (ps.map (fun p => p.1.length)).sum = sampleList.length + 8 := by
    generalize sampleList = xs at e
    have := congrArg (fun L => (L.map List.length).sum) e
    simp only [List.map_map, List.map_cons, List.map_nil, List.sum_cons, List.sum_nil,
      List.length_cons, List.length_nil] at this
    exact this
  obtain ⟨Z, s', o, hZ, e3, w⟩ := C13_union_exists (dbg := false) h hne
    MScratch.init MScratch.init_ok (List.replicate (sampleList.length + 8) 0)
    (by rw [hl, List.length_replicate]; exact Nat.le_refl _)
  exact ⟨m, ps, Z, s', o, e, h, hZ, e3, w⟩

/-! ## C14 -/

/-- C14: permuting the vector, another tie-breaking order, another scratch history and another
buffer give the same size and the same elements. -/
theorem C14_intersection_perm {sort sort₂ : (SSeq → Nat) → List SSeq → List SSeq}
    (hsort : SortOk sort) (hsort₂ : SortOk sort₂) {qs : List (List Nat × SSeq)}
    (hps : StoredAll dbg' pad m ps) (hq : qs.Perm ps) {p : List Nat × SSeq} (hp : p ∈ ps)
    (s t : IScratch) (hs : s.Ok) (ht : t.Ok) (out out₂ : List Nat)
    (hcap : p.1.length ≤ out.length) (hcap₂ : p.1.length ≤ out₂.length) :
    ∃ Z v₁ v₂ s' t' o o₂,
      intersection dbg sort m (ps.map Prod.snd) s out 0 = .ok (Z.length, v₁, s', o) ∧
      intersection dbg sort₂ m (qs.map Prod.snd) t out₂ 0 = .ok (Z.length, v₂, t', o₂) ∧
      o.take Z.length = Z ∧ o₂.take Z.length = Z := by
  obtain ⟨Z, v₁, s', o, hZ, e1, w1⟩ := C12_intersection_exists (dbg := dbg) hsort hps hp s hs out hcap
  obtain ⟨Z', v₂, t', o₂, hZ', e2, w2⟩ := C12_intersection_exists (dbg := dbg) hsort₂ (hps.perm hq)
    (hq.mem_iff.mpr hp) t ht out₂ hcap₂
  have : Z = Z' := hZ.unique ⟨hZ'.1, fun v => (hZ'.2 v).trans
    ⟨fun h q hq' => h q (hq.mem_iff.mpr hq'), fun h q hq' => h q (hq.mem_iff.mp hq')⟩⟩
  subst this
  exact ⟨Z, v₁, v₂, s', t', o, o₂, e1, e2, w1, w2⟩

/-- C14, the same for the union. -/
theorem C14_union_many_perm {qs : List (List Nat × SSeq)} (hps : StoredAll dbg' pad m ps)
    (hq : qs.Perm ps) (hne : ps ≠ []) (s t : MScratch) (hs : s.Ok) (ht : t.Ok) (out out₂ : List Nat)
    (hcap : (ps.map (fun p => p.1.length)).sum ≤ out.length)
    (hcap₂ : (ps.map (fun p => p.1.length)).sum ≤ out₂.length) :
    ∃ Z s' t' o o₂,
      union_many dbg m (ps.map Prod.snd) s out 0 = .ok (Z.length, s', o) ∧
      union_many dbg m (qs.map Prod.snd) t out₂ 0 = .ok (Z.length, t', o₂) ∧
      o.take Z.length = Z ∧ o₂.take Z.length = Z := by
  have hqne : qs ≠ [] := by
    intro h
    rw [h] at hq
    exact hne (List.nil_perm.mp hq)
  obtain ⟨Z, s', o, hZ, e1, w1⟩ := C13_union_exists (dbg := dbg) hps hne s hs out hcap
  obtain ⟨Z', t', o₂, hZ', e2, w2⟩ := C13_union_exists (dbg := dbg) (hps.perm hq) hqne t ht out₂
    (by
      have := (hq.map (fun p => p.1.length)).sum_nat
      omega)
  have : Z = Z' := hZ.unique ⟨hZ'.1, fun v => (hZ'.2 v).trans
    ⟨fun ⟨q, h1, h2⟩ => ⟨q, hq.mem_iff.mp h1, h2⟩, fun ⟨q, h1, h2⟩ => ⟨q, hq.mem_iff.mpr h1, h2⟩⟩⟩
  subst this
  exact ⟨Z, s', t', o, o₂, e1, e2, w1, w2⟩

/-- C14: repeating sequences in the vector changes nothing. -/
theorem C14_union_many_repeat (hps : StoredAll dbg' pad m ps) (hne : ps ≠ []) (s t : MScratch)
    (hs : s.Ok) (ht : t.Ok) (out out₂ : List Nat)
    (hcap : (ps.map (fun p => p.1.length)).sum ≤ out.length)
    (hcap₂ : ((ps ++ ps).map (fun p => p.1.length)).sum ≤ out₂.length) :
    ∃ Z s' t' o o₂,
      union_many dbg m (ps.map Prod.snd) s out 0 = .ok (Z.length, s', o) ∧
      union_many dbg m ((ps ++ ps).map Prod.snd) t out₂ 0 = .ok (Z.length, t', o₂) ∧
      o.take Z.length = Z ∧ o₂.take Z.length = Z := by
  obtain ⟨Z, s', o, hZ, e1, w1⟩ := C13_union_exists (dbg := dbg) hps hne s hs out hcap
  have hps2 : StoredAll dbg' pad m (ps ++ ps) := fun p hp => hps p (by simpa using hp)
  obtain ⟨Z', t', o₂, hZ', e2, w2⟩ := C13_union_exists (dbg := dbg) hps2 (by simp [hne]) t ht out₂
    hcap₂
  have : Z = Z' := hZ.unique ⟨hZ'.1, fun v => (hZ'.2 v).trans (by simp)⟩
  subst this
  exact ⟨Z, s', t', o, o₂, e1, e2, w1, w2⟩

theorem C14_intersection_repeat {sort : (SSeq → Nat) → List SSeq → List SSeq} (hsort : SortOk sort)
    (hps : StoredAll dbg' pad m ps) {p : List Nat × SSeq} (hp : p ∈ ps)
    (s t : IScratch) (hs : s.Ok) (ht : t.Ok) (out out₂ : List Nat)
    (hcap : p.1.length ≤ out.length) (hcap₂ : p.1.length ≤ out₂.length) :
    ∃ Z v₁ v₂ s' t' o o₂,
      intersection dbg sort m (ps.map Prod.snd) s out 0 = .ok (Z.length, v₁, s', o) ∧
      intersection dbg sort m ((ps ++ ps).map Prod.snd) t out₂ 0 = .ok (Z.length, v₂, t', o₂) ∧
      o.take Z.length = Z ∧ o₂.take Z.length = Z := by
  obtain ⟨Z, v₁, s', o, hZ, e1, w1⟩ := C12_intersection_exists (dbg := dbg) hsort hps hp s hs out hcap
  have hps2 : StoredAll dbg' pad m (ps ++ ps) := fun p hp => hps p (by simpa using hp)
  obtain ⟨Z', v₂, t', o₂, hZ', e2, w2⟩ := C12_intersection_exists (dbg := dbg) hsort hps2
    (p := p) (by simp [hp]) t ht out₂ hcap₂
  have : Z = Z' := hZ.unique ⟨hZ'.1, fun v => (hZ'.2 v).trans (by simp)⟩
  subst this
  exact ⟨Z, v₁, v₂, s', t', o, o₂, e1, e2, w1, w2⟩

/-! ## C30 -/

/-- The pairwise way to intersect `xs` (stored at `l`) with `ps`: intersect with the first, decode,
build a sequence from the result, go on; stop when nothing is left. -/
inductive InterChain (dbg : Bool) (tab : Nat → List Nat) (m : Mem) :
    List Nat → SSeq → List (List Nat × SSeq) → List Nat → Prop
  | done (xs l) : InterChain dbg tab m xs l [] xs
  | stop {xs l ys r ps x out x' out'} (hx : x.length = 1024)
      (hcap : min xs.length ys.length + 23 ≤ out.length)
      (h : pairwise_intersection dbg tab m l r x out 0 = .ok (0, x', out')) :
      InterChain dbg tab m xs l ((ys, r) :: ps) []
  | step {xs l ys r ps x out n x' out' t R} (hx : x.length = 1024)
      (hcap : min xs.length ys.length + 23 ≤ out.length)
      (h : pairwise_intersection dbg tab m l r x out 0 = .ok (n, x', out')) (hn : n ≠ 0)
      (ht : Stored dbg (out'.take n) 31 m t) (hR : InterChain dbg tab m (out'.take n) t ps R) :
      InterChain dbg tab m xs l ((ys, r) :: ps) R

theorem InterChain.spec {tab : Nat → List Nat} (ht : TabOk tab) {xs : List Nat} {l : SSeq}
    {R : List Nat} (h : InterChain dbg tab m xs l ps R) (hx : Valid xs) (hl : Stored dbg xs 31 m l)
    (hps : StoredAll dbg 31 m ps) : Enumerates R (fun v => v ∈ xs ∧ ∀ p ∈ ps, v ∈ p.1) := by
  induction h with
  | done xs l => exact ⟨hx.2.1, fun v => by simp⟩
  | @stop xs l ys r ps x out x' out' hx' hcap h =>
    obtain ⟨hy, hr⟩ := hps _ (List.mem_cons_self ..)
    obtain ⟨Z, x2, o2, hZ, e, w⟩ := C10_intersection_exists (dbg := dbg) ht hx hy hl hr x hx' out hcap
    have e := (Prod.mk.inj (except_ok_inj e h)).1
    have hZn : Z = [] := List.length_eq_zero_iff.mp e
    refine ⟨List.Pairwise.nil, fun v => ⟨fun h => absurd h (by simp), ?_⟩⟩
    rintro ⟨h1, h2⟩
    have : v ∈ Z := (hZ.2 v).mpr ⟨h1, h2 _ (List.mem_cons_self ..)⟩
    rw [hZn] at this; exact this
  | @step xs l ys r ps x out n x' out' t R hx' hcap h hn ht' hR ih =>
    obtain ⟨hy, hr⟩ := hps _ (List.mem_cons_self ..)
    obtain ⟨Z, x2, o2, hZ, e, w⟩ := C10_intersection_exists (dbg := dbg) ht hx hy hl hr x hx' out hcap
    have e := Prod.mk.inj (except_ok_inj e h)
    have e2 := (Prod.mk.inj e.2).2
    subst e2
    have en := e.1
    subst en
    have hv : Valid Z := by
      refine ⟨fun h => hn (by rw [h]; rfl), hZ.1, ?_⟩
      intro v hv
      exact hx.2.2 v ((hZ.2 v).mp hv).1
    rw [w] at ih ht'
    obtain ⟨h1, h2⟩ := ih hv ht' (fun p hp => hps p (List.mem_cons_of_mem _ hp))
    refine ⟨h1, fun v => (h2 v).trans ?_⟩
    refine (and_congr (hZ.2 v) Iff.rfl).trans ?_
    simp [and_assoc]

/-- C30: what `intersection` writes for `(xs, l) :: ps` is what intersecting pairwise gives. -/
theorem C30_intersection_fold {tab : Nat → List Nat} (ht : TabOk tab)
    {sort : (SSeq → Nat) → List SSeq → List SSeq} (hsort : SortOk sort) {xs : List Nat} {l : SSeq}
    {R : List Nat} (hx : Valid xs) (hl : Stored dbg xs 31 m l) (hps : StoredAll dbg 31 m ps)
    (h : InterChain dbg tab m xs l ps R) (s : IScratch) (hs : s.Ok) (out : List Nat) (k : Nat)
    (hcap : k + R.length ≤ out.length) :
    ∃ qs s' out', intersection dbg sort m (l :: ps.map Prod.snd) s out k
        = .ok (R.length, qs, s', out') ∧ Wrote out k R 0 out' := by
  have hR := h.spec ht hx hl hps
  have hall : StoredAll dbg 31 m ((xs, l) :: ps) := by
    intro p hp
    rcases List.mem_cons.mp hp with rfl | hp
    · exact ⟨hx, hl⟩
    · exact hps p hp
  obtain ⟨qs, s', o, e, -, -, -, w⟩ := C12_intersection (dbg := dbg) hsort hall (by simp)
    (Z := R) ⟨hR.1, fun v => (hR.2 v).trans (by simp)⟩ s hs out k hcap
  exact ⟨_, s', o, e, w⟩

/-- The pairwise way to unite `xs` (stored at `a`) with `ps`. -/
inductive UniChain (dbg : Bool) (m : Mem) :
    List Nat → SSeq → List (List Nat × SSeq) → List Nat → Prop
  | done (xs l) : UniChain dbg m xs l [] xs
  | step {xs l ys r ps x out n x' out' t R a b bx bY} (hx : x.Ok)
      (hcap : xs.length + ys.length + 23 ≤ out.length)
      (hl : StoredAt dbg xs 31 m a bx l) (hr : StoredAt dbg ys 31 m b bY r)
      (hpos : a = b ∨ a + bx.length ≤ b ∨ b + bY.length ≤ a)
      (h : pairwise_union dbg m l r x out 0 = .ok (n, x', out'))
      (ht : Stored dbg (out'.take n) 31 m t) (hR : UniChain dbg m (out'.take n) t ps R) :
      UniChain dbg m xs l ((ys, r) :: ps) R

theorem UniChain.spec {xs : List Nat} {l : SSeq}
    {R : List Nat} (h : UniChain dbg m xs l ps R) (hx : Valid xs)
    (hps : StoredAll dbg 31 m ps) : Enumerates R (fun v => v ∈ xs ∨ ∃ p ∈ ps, v ∈ p.1) := by
  induction h with
  | done xs l => exact ⟨hx.2.1, fun v => by simp⟩
  | @step xs l ys r ps x out n x' out' t R a b bx bY hx' hcap hl hr hpos h ht' hR ih =>
    have hy := (hps _ (List.mem_cons_self ..)).1
    obtain ⟨Z, x2, o2, hZ, e, w⟩ := C11_union_exists (dbg := dbg) hx hy hl hr hpos x hx' out hcap
    have e := Prod.mk.inj (except_ok_inj e h)
    have e2 := (Prod.mk.inj e.2).2
    subst e2
    have en := e.1
    subst en
    have hv : Valid Z := by
      refine ⟨?_, hZ.1, ?_⟩
      · intro h
        cases hxs : xs with
        | nil => exact hx.1 hxs
        | cons a xs' =>
          have := (hZ.2 a).mpr (Or.inl (by rw [hxs]; simp))
          rw [h] at this; simp at this
      · intro v hv
        rcases (hZ.2 v).mp hv with h | h
        · exact hx.2.2 v h
        · exact hy.2.2 v h
    rw [w] at ih ht'
    obtain ⟨h1, h2⟩ := ih hv (fun p hp => hps p (List.mem_cons_of_mem _ hp))
    refine ⟨h1, fun v => (h2 v).trans ?_⟩
    refine (or_congr (hZ.2 v) Iff.rfl).trans ?_
    simp [or_assoc]

/-- C30: what `union_many` writes for `(xs, l) :: ps` is what uniting pairwise gives. -/
theorem C30_union_fold {xs : List Nat} {l : SSeq}
    {R : List Nat} (hx : Valid xs) (hl : Stored dbg xs 31 m l) (hps : StoredAll dbg 31 m ps)
    (h : UniChain dbg m xs l ps R) (s : MScratch) (hs : s.Ok) (out : List Nat) (k : Nat)
    (hcap : k + R.length ≤ out.length) :
    ∃ s' out', union_many dbg m (l :: ps.map Prod.snd) s out k
        = .ok (R.length, s', out') ∧ Wrote out k R 0 out' := by
  have hR := h.spec hx hps
  have hall : StoredAll dbg 31 m ((xs, l) :: ps) := by
    intro p hp
    rcases List.mem_cons.mp hp with rfl | hp
    · exact ⟨hx, hl⟩
    · exact hps p hp
  obtain ⟨s', o, e, -, w⟩ := C13_union (dbg := dbg) hall (by simp)
    (Z := R) ⟨hR.1, fun v => (hR.2 v).trans (by simp)⟩ s hs out k hcap
  exact ⟨s', o, e, w⟩

theorem valid_of_lt {xs : List Nat} (h : xs ≠ []) (hs : xs.Pairwise (· < ·))
    (hb : ∀ x ∈ xs, x < 1000) : Valid xs := ⟨h, hs, fun x hx => by have := hb x hx; omega⟩

/-- Non-trivial chains: `{1,2,300} ∩ {2,300,301} = {2,300}` and then `∩ {2, 400} = {2}`. -/
example : ∃ m l r₁ r₂, Stored true [1, 2, 300] 31 m l ∧
    StoredAll true 31 m [([2, 300, 301], r₁), ([2, 400], r₂)] ∧
    InterChain true stdTab m [1, 2, 300] l [([2, 300, 301], r₁), ([2, 400], r₂)] [2] := by
  obtain ⟨m, ps, e, h⟩ := stored_many true 31 [[1, 2, 300], [2, 300, 301], [2, 400], [2, 300], [2]]
    (by
      intro xs hx
      simp only [List.mem_cons, List.not_mem_nil, or_false] at hx
      rcases hx with rfl | rfl | rfl | rfl | rfl <;> refine valid_of_lt ?_ ?_ ?_ <;> decide)
  match ps, e, h with
  | [(_, l), (_, r₁), (_, r₂), (_, t₁), (_, t₂)], e, h =>
    simp only [List.map_cons, List.map_nil, List.cons.injEq, and_true] at e
    obtain ⟨rfl, rfl, rfl, rfl, rfl⟩ := e
    have hl := h ([1, 2, 300], l) (by simp)
    have h1 := h ([2, 300, 301], r₁) (by simp)
    have h2 := h ([2, 400], r₂) (by simp)
    have h3 := h ([2, 300], t₁) (by simp)
    have h4 := h ([2], t₂) (by simp)
    refine ⟨m, l, r₁, r₂, hl.2, ?_, ?_⟩
    · intro p hp
      simp only [List.mem_cons, List.not_mem_nil, or_false] at hp
      rcases hp with rfl | rfl
      · exact h1
      · exact h2
    · obtain ⟨x1, o1, e1, -, w1⟩ := C10_intersection (dbg := true) stdTab_ok hl.1 h1.1 hl.2 h1.2
        (Z := [2, 300]) ⟨by decide, fun v => by simp; omega⟩ (List.replicate 1024 0)
        List.length_replicate (List.replicate 26 0) 0 (by rw [List.length_replicate]; decide)
      obtain ⟨x2, o2, e2, -, w2⟩ := C10_intersection (dbg := true) stdTab_ok h3.1 h2.1 h3.2 h2.2
        (Z := [2]) ⟨by decide, fun v => by simp; omega⟩ (List.replicate 1024 0)
        List.length_replicate (List.replicate 26 0) 0 (by rw [List.length_replicate]; decide)
      have w1 := w1.take_zero
      have w2 := w2.take_zero
      refine InterChain.step List.length_replicate (by rw [List.length_replicate]; decide) e1
        (by simp) (by rw [w1]; exact h3.2) ?_
      rw [w1]
      refine InterChain.step List.length_replicate (by rw [List.length_replicate]; decide) e2
        (by simp) (by rw [w2]; exact h4.2) ?_
      rw [w2]
      exact InterChain.done _ _

/-- `{1,2,300} ∪ {2,300,301} = {1,2,300,301}` and then `∪ {2, 400}`. -/
example : ∃ m l r₁ r₂, Stored true [1, 2, 300] 31 m l ∧
    StoredAll true 31 m [([2, 300, 301], r₁), ([2, 400], r₂)] ∧
    UniChain true m [1, 2, 300] l [([2, 300, 301], r₁), ([2, 400], r₂)] [1, 2, 300, 301, 400] := by
  have hv : ∀ xs ∈ [[1, 2, 300], [2, 300, 301], [1, 2, 300, 301], [2, 400], [1, 2, 300, 301, 400]],
      Valid xs := by
    intro xs hx
    simp only [List.mem_cons, List.not_mem_nil, or_false] at hx
    rcases hx with rfl | rfl | rfl | rfl | rfl <;> refine valid_of_lt ?_ ?_ ?_ <;> decide
  obtain ⟨m, ps, e, h, hap⟩ := stored_apart true 31 _ hv
  match ps, e, h, hap with
  | [⟨_, a, ba, l⟩, ⟨_, b, bb, r₁⟩, ⟨_, c, bc, t₁⟩, ⟨_, d, bd, r₂⟩, ⟨_, f, bf, t₂⟩], e, h, hap =>
    simp only [List.map_cons, List.map_nil, List.cons.injEq, and_true] at e
    obtain ⟨rfl, rfl, rfl, rfl, rfl⟩ := e
    simp only [List.pairwise_cons, List.mem_cons, List.not_mem_nil, or_false, forall_eq_or_imp,
      forall_eq] at hap
    have hl := h ⟨[1, 2, 300], a, ba, l⟩ (by simp)
    have h1 := h ⟨[2, 300, 301], b, bb, r₁⟩ (by simp)
    have h3 := h ⟨[1, 2, 300, 301], c, bc, t₁⟩ (by simp)
    have h2 := h ⟨[2, 400], d, bd, r₂⟩ (by simp)
    have h4 := h ⟨[1, 2, 300, 301, 400], f, bf, t₂⟩ (by simp)
    refine ⟨m, l, r₁, r₂, hl.stored, ?_, ?_⟩
    · intro p hp
      simp only [List.mem_cons, List.not_mem_nil, or_false] at hp
      rcases hp with rfl | rfl
      · exact ⟨hv _ (by simp), h1.stored⟩
      · exact ⟨hv _ (by simp), h2.stored⟩
    · obtain ⟨x1, o1, e1, -, w1⟩ := C11_union (dbg := true) (hv _ (by simp)) (hv _ (by simp)) hl h1
        (Or.inr (Or.inl hap.1.1))
        (Z := [1, 2, 300, 301]) ⟨by decide, fun v => by simp; omega⟩ UScratch.init UScratch.init_ok
        (List.replicate 29 0) 0 (by rw [List.length_replicate]; decide)
      obtain ⟨x2, o2, e2, -, w2⟩ := C11_union (dbg := true) (hv _ (by simp)) (hv _ (by simp)) h3 h2
        (Or.inr (Or.inl hap.2.2.1.1))
        (Z := [1, 2, 300, 301, 400]) ⟨by decide, fun v => by simp; omega⟩ UScratch.init
        UScratch.init_ok (List.replicate 29 0) 0 (by rw [List.length_replicate]; decide)
      have w1 := w1.take_zero
      have w2 := w2.take_zero
      refine UniChain.step UScratch.init_ok (by rw [List.length_replicate]; decide) hl h1
        (Or.inr (Or.inl hap.1.1)) e1 (by rw [w1]; exact h3.stored) ?_
      rw [w1]
      refine UniChain.step UScratch.init_ok (by rw [List.length_replicate]; decide) h3 h2
        (Or.inr (Or.inl hap.2.2.1.1)) e2 (by rw [w2]; exact h4.stored) ?_
      rw [w2]
      exact UniChain.done _ _

/-! ## C31 -/

/-- C31: the caller's vector ends up holding the same sequence objects, permuted, with
`cardinality()` non-decreasing. -/
theorem C31_reorders {sort : (SSeq → Nat) → List SSeq → List SSeq} (hsort : SortOk sort)
    (hps : StoredAll dbg' pad m ps) {p : List Nat × SSeq} (hp : p ∈ ps) (s : IScratch) (hs : s.Ok)
    (out : List Nat) (hcap : p.1.length ≤ out.length) :
    ∃ n v s' out', intersection dbg sort m (ps.map Prod.snd) s out 0 = .ok (n, v, s', out') ∧
      v.Perm (ps.map Prod.snd) ∧
      ∀ (i j : Nat) (a b : SSeq), i < j → v[i]? = some a → v[j]? = some b →
        ∃ ca cb, a.cardinality m = .ok ca ∧ b.cardinality m = .ok cb ∧ ca ≤ cb := by
  have hne : ps ≠ [] := List.ne_nil_of_mem hp
  obtain ⟨Z, v, s', o, hZ, e, -⟩ := C12_intersection_exists (dbg := dbg) hsort hps hp s hs out hcap
  have hl : Z.length ≤ out.length := by
    have h1 : Z = inter Z p.1 := by
      apply sorted_ext hZ.1 (inter_sorted hZ.1)
      intro v
      rw [mem_inter]
      exact ⟨fun h => ⟨h, (hZ.2 v).mp h p hp⟩, fun h => h.1⟩
    have h2 := inter_length_le p.1 Z
    rw [inter_comm (hps p hp).1.2.1 hZ.1, ← h1] at h2
    omega
  obtain ⟨qs, s2, o2, e2, hq, hk, -, -⟩ := C12_intersection (dbg := dbg) hsort hps hne hZ s hs out 0
    (by omega)
  refine ⟨_, _, _, _, e2, hq.map _, ?_⟩
  intro i j a b hij ha hb
  rw [List.getElem?_map] at ha hb
  obtain ⟨p1, h1, rfl⟩ := Option.map_eq_some_iff.mp ha
  obtain ⟨p2, h2, rfl⟩ := Option.map_eq_some_iff.mp hb
  have m1 := (hps.perm hq) p1 (List.mem_of_getElem? h1)
  have m2 := (hps.perm hq) p2 (List.mem_of_getElem? h2)
  refine ⟨_, _, (C03_cardinality m1.1 m1.2).1, (C03_cardinality m2.1 m2.2).1, ?_⟩
  obtain ⟨l1, rfl⟩ := List.getElem?_eq_some_iff.mp h1
  obtain ⟨l2, rfl⟩ := List.getElem?_eq_some_iff.mp h2
  exact List.pairwise_iff_getElem.mp hk i j l1 l2 hij

/-- three stored lists: a memory, the sequences in it and the second of them -/
theorem three_stored : ∃ m ps p, ps.map Prod.fst = [sampleList, [3, 5, 300, 70000], [3, 5, 300, 70000]] ∧
    StoredAll true 31 m ps ∧ p ∈ ps ∧ p.1 = [3, 5, 300, 70000] ∧ ps ≠ [] := by
  obtain ⟨m, ps, e, h⟩ := stored_many true 31 _ threeLists_valid
  have : [3, 5, 300, 70000] ∈ ps.map Prod.fst := by
    rw [e]; exact List.mem_cons_of_mem _ (List.mem_cons_self ..)
  obtain ⟨p, hp, e2⟩ := List.mem_map.mp this
  exact ⟨m, ps, p, e, h, hp, e2, List.ne_nil_of_mem hp⟩

example : ∃ m ps, ∃ (Z : List Nat) (qs : List (List Nat × SSeq)), ∃ s' out', StoredAll true 31 m ps ∧
    intersection false stdSort m (ps.map Prod.snd) IScratch.init (List.replicate 9 0) 5
      = .ok (Z.length, qs.map Prod.snd, s', out') ∧ Wrote (List.replicate 9 0) 5 Z 0 out' := by
  obtain ⟨m, ps, p, e, h, hp, e2, hne⟩ := three_stored
  have hZ := interAll_spec (fun p hp => (h p hp).1) hne
  have hl : (interAll (ps.map Prod.fst)).length ≤ 4 := by
    have : interAll (ps.map Prod.fst) = inter (interAll (ps.map Prod.fst)) p.1 := by
      apply sorted_ext hZ.1 (inter_sorted hZ.1)
      intro v
      rw [mem_inter]
      exact ⟨fun hv => ⟨hv, (hZ.2 v).mp hv p hp⟩, fun hv => hv.1⟩
    rw [this, inter_comm hZ.1 (h p hp).1.2.1]
    refine Nat.le_trans (inter_length_le _ _) ?_
    rw [e2]; simp
  obtain ⟨qs, s', o, e3, -, -, -, w⟩ := C12_intersection (dbg := false) stdSort_ok h hne hZ
    IScratch.init IScratch.init_ok (List.replicate 9 0) 5 (by simp only [List.length_replicate]; omega)
  exact ⟨m, ps, _, qs, s', o, h, e3, w⟩

example : ∃ m ps, ∃ (Z : List Nat), ∃ s' out out', StoredAll true 31 m ps ∧
    union_many false m (ps.map Prod.snd) MScratch.init out 5 = .ok (Z.length, s', out') ∧
    Wrote out 5 Z 0 out' := by
  obtain ⟨m, ps, p, e, h, hp, e2, hne⟩ := three_stored
  obtain ⟨s', o, e3, -, w⟩ := C13_union (dbg := false) h hne (uniAll_spec (fun p hp => (h p hp).1))
    MScratch.init MScratch.init_ok (List.replicate _ 0) 5 (Nat.le_of_eq List.length_replicate.symm)
  exact ⟨m, ps, _, s', _, o, h, e3, w⟩

example : ∃ m ps Z v₁ v₂ s' t' o o₂, StoredAll true 31 m ps ∧
    intersection false stdSort m (ps.map Prod.snd) IScratch.init (List.replicate 4 0) 0
      = .ok (Z, v₁, s', o) ∧
    intersection false stdSort m (ps.reverse.map Prod.snd) IScratch.init (List.replicate 4 0) 0
      = .ok (Z, v₂, t', o₂) ∧ o.take Z = o₂.take Z := by
  obtain ⟨m, ps, p, e, h, hp, e2, hne⟩ := three_stored
  have hc : p.1.length ≤ (List.replicate 4 0).length := by rw [e2]; simp
  obtain ⟨Z, v₁, v₂, s', t', o, o₂, e1, e3, w1, w2⟩ := C14_intersection_perm (dbg := false) stdSort_ok
    stdSort_ok h (List.reverse_perm ps) hp IScratch.init IScratch.init IScratch.init_ok IScratch.init_ok
    (List.replicate 4 0) (List.replicate 4 0) hc hc
  exact ⟨m, ps, _, v₁, v₂, s', t', o, o₂, h, e1, e3, w1.trans w2.symm⟩

example : ∃ m ps Z s' t' out o o₂, StoredAll true 31 m ps ∧
    union_many false m (ps.map Prod.snd) MScratch.init out 0 = .ok (Z, s', o) ∧
    union_many false m (ps.reverse.map Prod.snd) MScratch.init out 0 = .ok (Z, t', o₂) ∧
    o.take Z = o₂.take Z := by
  obtain ⟨m, ps, p, e, h, hp, e2, hne⟩ := three_stored
  obtain ⟨Z, s', t', o, o₂, e1, e3, w1, w2⟩ := C14_union_many_perm (dbg := false) h
    (List.reverse_perm ps) hne MScratch.init MScratch.init MScratch.init_ok MScratch.init_ok
    (List.replicate _ 0) (List.replicate _ 0) (Nat.le_of_eq List.length_replicate.symm)
    (Nat.le_of_eq List.length_replicate.symm)
  exact ⟨m, ps, _, s', t', _, o, o₂, h, e1, e3, w1.trans w2.symm⟩

example : ∃ m ps Z s' t' out out₂ o o₂, StoredAll true 31 m ps ∧
    union_many false m (ps.map Prod.snd) MScratch.init out 0 = .ok (Z, s', o) ∧
    union_many false m ((ps ++ ps).map Prod.snd) MScratch.init out₂ 0 = .ok (Z, t', o₂) ∧
    o.take Z = o₂.take Z := by
  obtain ⟨m, ps, p, e, h, hp, e2, hne⟩ := three_stored
  obtain ⟨Z, s', t', o, o₂, e1, e3, w1, w2⟩ := C14_union_many_repeat (dbg := false) h hne
    MScratch.init MScratch.init MScratch.init_ok MScratch.init_ok
    (List.replicate _ 0) (List.replicate _ 0) (Nat.le_of_eq List.length_replicate.symm)
    (Nat.le_of_eq List.length_replicate.symm)
  exact ⟨m, ps, _, s', t', _, _, o, o₂, h, e1, e3, w1.trans w2.symm⟩

example : ∃ m ps Z v₁ v₂ s' t' o o₂, StoredAll true 31 m ps ∧
    intersection false stdSort m (ps.map Prod.snd) IScratch.init (List.replicate 4 0) 0
      = .ok (Z, v₁, s', o) ∧
    intersection false stdSort m ((ps ++ ps).map Prod.snd) IScratch.init (List.replicate 4 0) 0
      = .ok (Z, v₂, t', o₂) ∧ o.take Z = o₂.take Z := by
  obtain ⟨m, ps, p, e, h, hp, e2, hne⟩ := three_stored
  have hc : p.1.length ≤ (List.replicate 4 0).length := by rw [e2]; simp
  obtain ⟨Z, v₁, v₂, s', t', o, o₂, e1, e3, w1, w2⟩ := C14_intersection_repeat (dbg := false) stdSort_ok
    h hp IScratch.init IScratch.init IScratch.init_ok IScratch.init_ok
    (List.replicate 4 0) (List.replicate 4 0) hc hc
  exact ⟨m, ps, _, v₁, v₂, s', t', o, o₂, h, e1, e3, w1.trans w2.symm⟩

example : ∃ m ps n v s' out', StoredAll true 31 m ps ∧
    intersection false stdSort m (ps.map Prod.snd) IScratch.init (List.replicate 4 0) 0
      = .ok (n, v, s', out') ∧ v.Perm (ps.map Prod.snd) := by
  obtain ⟨m, ps, p, e, h, hp, e2, hne⟩ := three_stored
  have hc : p.1.length ≤ (List.replicate 4 0).length := by rw [e2]; simp
  obtain ⟨n, v, s', o, e1, w, -⟩ := C31_reorders (dbg := false) stdSort_ok
    h hp IScratch.init IScratch.init_ok (List.replicate 4 0) hc
  exact ⟨m, ps, n, v, s', o, h, e1, w⟩

end Sliced
