import Verif.Proof.Tests
import Verif.Props.ToolsRoom
import Verif.Props.Enumerator
/-!
# C49: the test programs accept the indexes they are meant to accept

`dbg` is the mode the index was built in, `dbg'` the one the program runs in.  The same collection and
parameters are given to the builder and to the test.
-/
namespace Sliced

variable {dbg dbg' : Bool} {ks : List (List Nat)} {iu : Nat} {idx : SIndex} {params : Params} {univ a : Nat} {lists : List (List Nat)} {m : Mem}
  {xs data out : List Nat}

theorem valid_length (hv : Valid xs) : xs.length < 4294901761 := by
  have := sorted_length_le' hv.2.1 hv.2.2
  omega

theorem valid_at (hv : Valid xs) {j x : Nat} (hx : xs[j]? = some x) : x < 4294967296 := by
  have := hv.2.2 x (List.mem_of_getElem? hx)
  omega

theorem prefix_get {α : Type} {l l' : List α} (h : l <+: l') {j : Nat} {x : α} (hx : l[j]? = some x) :
    l'[j]? = some x := by
  obtain ⟨t, rfl⟩ := h
  rw [List.getElem?_append_left (List.getElem?_eq_some_iff.mp hx).1, hx]

/-- a decoded list is compared with itself -/
theorem compare_lists_good {p : Nat} (hat : (data.drop p).take xs.length = xs)
    (ho : ∀ i, i < xs.length → out[i]? = xs[i]?) :
    compare_lists data out p xs.length true = .ok true := by
  unfold compare_lists
  obtain ⟨s, e, h⟩ := forRange_spec (fun _ (g : Bool) => g = true) xs.length 0 true rfl
    (body := fun j good => do
      let expected ← rdv data (p + j)
      let got ← rdv out j
      return good && (expected == got)) (by
      rintro j g _ hj rfl
      have hx : xs[j]? = some xs[j] := List.getElem?_eq_getElem (by omega)
      refine ⟨true, ?_, rfl⟩
      rw [rdv_at hat hx, ok_bind, rdv_of ((ho j (by omega)).trans hx), ok_bind]
      simp)
  rw [e, h]

/-- an index whose first lists are those of the collection -/
theorem accept_contains (h : Indexed dbg ks iu m a idx)
    (hlen : ∀ xs ∈ lists, xs.length < 4294967295) (hpre : keptLists params lists <+: ks) :
    test_contains dbg' m a params (collection univ lists)
      = .ok ((keptLists params lists).length, true) := by
  unfold test_contains
  rw [h.map, ok_bind, test_collection_eq hlen]
  obtain ⟨s, e, hs⟩ := overLists_spec (fun _ (s : Bool × Unit) => s.1 = true) (keptAt params lists) 0
    (true, ()) rfl (body := check_contains dbg' m idx (collection univ lists)) (by
      rintro j xs p ⟨g, u⟩ hj hg
      simp only at hg
      subst hg
      obtain ⟨hk, hat⟩ := keptAt_spec (univ := univ) hj
      replace hk := prefix_get hpre hk
      have hv := h.valid _ (List.mem_of_getElem? hk)
      obtain ⟨s, b, hs, -, hst⟩ := h.get j _ hk dbg'
      unfold check_contains
      rw [Nat.zero_add, hs, ok_bind, (C03_cardinality hv hst.stored).1, ok_bind]
      obtain ⟨g, e, hg⟩ := forRange_spec (fun _ (g : Bool) => g = true) xs.length 0
        (true && (xs.length == xs.length)) (by simp)
        (body := fun j good => do
          let value ← rdv (collection univ lists) (p + j)
          let found ← s.contains dbg' m value
          return good && found) (by
          rintro j g _ hj rfl
          have hx : xs[j]? = some xs[j] := List.getElem?_eq_getElem (by omega)
          refine ⟨true, ?_, rfl⟩
          rw [rdv_at hat hx, ok_bind, C04_contains hv hst.stored (valid_at hv hx), ok_bind]
          simp)
      exact ⟨(g, ()), by rw [e]; rfl, hg⟩)
  rw [e, hs, Nat.zero_add, keptAt_length]

/-- C49: `test_contains` reports that everything is good. -/
theorem C49_contains (h : FileAt dbg params univ lists m a) :
    test_contains dbg' m a params (collection univ lists)
      = .ok ((keptLists params lists).length, true) := by
  have hg := h.1
  obtain ⟨idx, h⟩ := h.indexed
  exact accept_contains h hg.2.1 List.prefix_rfl

/-- an index whose first lists are those of the collection -/
theorem accept_decode (h : Indexed dbg ks iu m a idx)
    (hlen : ∀ xs ∈ lists, xs.length < 4294967295) (hpre : keptLists params lists <+: ks) :
    ((∀ xs ∈ keptLists params lists, HasRoom xs iu) →
      test_decode dbg' m a params (collection univ lists)
        = .ok ((keptLists params lists).length, true)) ∧
    ((∃ xs ∈ keptLists params lists, ¬ HasRoom xs iu) →
      test_decode dbg' m a params (collection univ lists) = .error .ub) := by
  have key : ∀ (j : Nat) (xs : List Nat) (p : Nat) (s : Bool × List Nat),
      (keptAt params lists)[j]? = some (xs, p) → (s.1 = true ∧ s.2.length = iu) →
      (HasRoom xs iu → ∃ s', check_decode dbg' m idx (collection univ lists) j xs.length
        (xs.getLast?.getD 0) p s = .ok s' ∧ s'.1 = true ∧ s'.2.length = iu) ∧
      (¬ HasRoom xs iu → check_decode dbg' m idx (collection univ lists) j xs.length
        (xs.getLast?.getD 0) p s = .error .ub) := by
    rintro j xs p ⟨g, o⟩ hj ⟨hg, ho⟩
    simp only at hg ho
    subst hg
    obtain ⟨hk, hat⟩ := keptAt_spec (univ := univ) hj
    replace hk := prefix_get hpre hk
    have hv := h.valid _ (List.mem_of_getElem? hk)
    obtain ⟨s, b, hs, -, hst⟩ := h.get j _ hk dbg'
    obtain ⟨h1, h2⟩ := C43_decode (dbg' := dbg') hv hst.stored o
    rw [ho] at h1 h2
    unfold check_decode
    rw [hs, ok_bind]
    constructor
    · intro hr
      obtain ⟨o', e, w⟩ := h1 hr
      refine ⟨(true, o'), ?_, rfl, w.1.trans ho⟩
      rw [e, ok_bind, (C03_cardinality hv hst.stored).1]
      simp only [ok_bind, beq_self_eq_true, Bool.and_self]
      rw [compare_lists_good hat (fun i hi => by have := w.2.2.1 i hi; rwa [Nat.zero_add] at this)]
      rfl
    · intro hr
      rw [h2 hr]; rfl
  constructor
  · intro hr
    unfold test_decode
    rw [h.map, ok_bind, test_collection_eq hlen, h.univ]
    obtain ⟨s, e, hs⟩ := overLists_spec (fun _ (s : Bool × List Nat) => s.1 = true ∧ s.2.length = iu)
      (keptAt params lists) 0 (true, List.replicate iu 0) ⟨rfl, List.length_replicate⟩
      (fun j xs p s hj hs => by
        rw [Nat.zero_add]
        exact (key j xs p s hj hs).1 (hr xs (List.mem_of_getElem? (keptAt_spec (univ := univ) hj).1)))
    rw [e, hs.1, Nat.zero_add, keptAt_length]
  · intro hr
    obtain ⟨k, xs, hk, hn, hfirst⟩ := first_failure hr
    have hk' := hk
    rw [← keptAt_fst, List.getElem?_map, Option.map_eq_some_iff] at hk'
    obtain ⟨⟨xs', q⟩, hq, rfl⟩ := hk'
    unfold test_decode
    rw [h.map, ok_bind, test_collection_eq hlen, h.univ]
    refine overLists_err (fun _ (s : Bool × List Nat) => s.1 = true ∧ s.2.length = iu)
      (keptAt params lists) 0 (true, List.replicate iu 0) k xs' q ⟨rfl, List.length_replicate⟩ hq
      (fun j ys p s hjk hj hs => ?_) (fun s hs => ?_)
    · rw [Nat.zero_add]
      exact (key j ys p s hj hs).1 (hfirst j ys hjk (keptAt_spec (univ := univ) hj).1)
    · rw [Nat.zero_add]
      exact (key k xs' q s hq hs).2 hn

/-- C49: `test_decode` reports that everything is good if each list has room in a buffer of
`universe()` slots, and writes out of bounds if one has not. -/
theorem C49_decode (h : FileAt dbg params univ lists m a) :
    ((∀ xs ∈ keptLists params lists, HasRoom xs univ) →
      test_decode dbg' m a params (collection univ lists)
        = .ok ((keptLists params lists).length, true)) ∧
    ((∃ xs ∈ keptLists params lists, ¬ HasRoom xs univ) →
      test_decode dbg' m a params (collection univ lists) = .error .ub) := by
  have hg := h.1
  obtain ⟨idx, h⟩ := h.indexed
  exact accept_decode h hg.2.1 List.prefix_rfl

/-- an index whose first lists are those of the collection -/
theorem accept_select (h : Indexed dbg ks iu m a idx)
    (hlen : ∀ xs ∈ lists, xs.length < 4294967295) (hpre : keptLists params lists <+: ks) :
    test_select dbg' m a params (collection univ lists)
      = .ok ((keptLists params lists).length, true) := by
  unfold test_select
  rw [h.map, ok_bind, test_collection_eq hlen]
  obtain ⟨s, e, hs⟩ := overLists_spec (fun _ (s : Bool × Unit) => s.1 = true) (keptAt params lists) 0
    (true, ()) rfl (body := check_select dbg' m idx (collection univ lists)) (by
      rintro j xs p ⟨g, u⟩ hj hg
      simp only at hg
      subst hg
      obtain ⟨hk, hat⟩ := keptAt_spec (univ := univ) hj
      replace hk := prefix_get hpre hk
      have hv := h.valid _ (List.mem_of_getElem? hk)
      have hl := valid_length hv
      obtain ⟨s, b, hs, -, hst⟩ := h.get j _ hk dbg'
      unfold check_select
      rw [Nat.zero_add, hs, ok_bind, (C03_cardinality hv hst.stored).1, ok_bind]
      obtain ⟨g, e, hg⟩ := forRange_spec (fun _ (g : Bool × Nat) => g.1 = true) xs.length 0
        (true && (xs.length == xs.length), 0) (by simp)
        (body := fun j (t : Bool × Nat) => do
          let expected ← rdv (collection univ lists) (p + j)
          let (valid, value) ← s.select dbg' m (u32 j) t.2
          return (t.1 && valid && (expected == value), value)) (by
          rintro j ⟨g, v⟩ _ hj hg
          simp only at hg
          subst hg
          have hj' : j < xs.length := by omega
          have hx : xs[j]? = some xs[j] := List.getElem?_eq_getElem hj'
          refine ⟨(true, xs[j]), ?_, rfl⟩
          rw [rdv_at hat hx, ok_bind, u32_lt (by omega), C05_select hv hst.stored hj' v, ok_bind]
          simp)
      exact ⟨(g.1, ()), by rw [e]; rfl, hg⟩)
  rw [e, hs, Nat.zero_add, keptAt_length]

/-- C49: `test_select` reports that everything is good. -/
theorem C49_select (h : FileAt dbg params univ lists m a) :
    test_select dbg' m a params (collection univ lists)
      = .ok ((keptLists params lists).length, true) := by
  have hg := h.1
  obtain ⟨idx, h⟩ := h.indexed
  exact accept_select h hg.2.1 List.prefix_rfl

/-- an index whose first lists begin with the lists of the collection: the enumerator is not asked for
the rest -/
theorem accept_enumerator (h : Indexed dbg ks iu m a idx)
    (hlen : ∀ xs ∈ lists, xs.length < 4294967295)
    (hpre : ∀ (j : Nat) xs, (keptLists params lists)[j]? = some xs → ∃ ys, ks[j]? = some ys ∧ xs <+: ys) :
    test_enumerator dbg' m a params (collection univ lists)
      = .ok ((keptLists params lists).length, true) := by
  unfold test_enumerator
  rw [h.map, ok_bind, test_collection_eq hlen]
  obtain ⟨s, e, hs⟩ := overLists_spec (fun _ (s : Bool × List Nat) => s.1 = true ∧ s.2.length = 65536)
    (keptAt params lists) 0 (true, List.replicate chunk_size 0) ⟨rfl, List.length_replicate⟩
    (body := check_enumerator dbg' m idx (collection univ lists)) (by
      rintro j xs p ⟨g, o⟩ hj ⟨hg, ho⟩
      simp only at hg ho
      subst hg
      obtain ⟨hk, hat⟩ := keptAt_spec (univ := univ) hj
      obtain ⟨ys, hk, hxy⟩ := hpre j xs hk
      have hv := h.valid _ (List.mem_of_getElem? hk)
      have hl := valid_length hv
      obtain ⟨s, b, hs, -, hst⟩ := h.get j _ hk dbg'
      have hr := hst.stored.repr hv
      have hsm := chunksOf_small hv.2.1
      have hx := seqElems_chunksOf hv
      obtain ⟨e, c, post, e1, h1⟩ := Enum.init_spec (dbg := dbg') hr hsm ho (u32 idx.univ)
      unfold check_enumerator
      rw [Nat.zero_add, hs, ok_bind, e1, ok_bind]
      obtain ⟨g, e, hg, hinv⟩ := forRange_spec (fun k (t : Bool × Enum) => t.1 = true ∧
          ((∃ pre c post, EnumAt m (chunksOf ys) (u32 idx.univ) k pre c post t.2) ∨
            (EnumEnd (u32 idx.univ) k t.2 ∧ ys.length ≤ k))) xs.length 0
        (true, e) ⟨rfl, Or.inl ⟨_, _, _, h1⟩⟩
        (body := fun j (t : Bool × Enum) => do
          let expected ← rdv (collection univ lists) (p + j)
          let got ← t.2.value
          let e ← t.2.next dbg' m
          return (t.1 && (expected == got), e)) (by
          rintro j ⟨g, e⟩ _ hj ⟨hg, he⟩
          simp only at hg he
          subst hg
          have hy : xs[j]? = some xs[j] := List.getElem?_eq_getElem (by omega)
          have hyl := hxy.length_le
          rcases he with ⟨pre, c, post, he⟩ | ⟨-, he⟩
          · obtain ⟨v, hval, hget⟩ := he.value
            rw [hx, prefix_get hxy hy, Option.some.injEq] at hget
            subst hget
            obtain ⟨e', e2, h2⟩ := he.next (dbg := dbg') hr.wf hsm
            refine ⟨(true, e'), ?_, rfl, ?_⟩
            · rw [rdv_at hat hy, ok_bind, hval, ok_bind, e2, ok_bind]
              simp
            · rcases h2 with h2 | ⟨h2, h3⟩
              · exact Or.inl h2
              · refine Or.inr ⟨h2, ?_⟩
                rw [h3, ← seqElems_length, hx]
                exact Nat.le_refl _
          · omega)
      refine ⟨(g.1, g.2.buf), by rw [e]; rfl, hg, ?_⟩
      rcases hinv with ⟨_, _, _, he⟩ | ⟨he, -⟩
      · exact he.len
      · exact he.len)
  rw [e, hs.1, Nat.zero_add, keptAt_length]

/-- C49: `test_enumerator` reports that everything is good. -/
theorem C49_enumerator (h : FileAt dbg params univ lists m a) :
    test_enumerator dbg' m a params (collection univ lists)
      = .ok ((keptLists params lists).length, true) := by
  have hg := h.1
  obtain ⟨idx, h⟩ := h.indexed
  exact accept_enumerator h hg.2.1 (fun j xs hj => ⟨xs, hj, List.prefix_rfl⟩)

end Sliced
