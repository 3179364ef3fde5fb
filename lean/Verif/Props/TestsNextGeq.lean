import Verif.Props.Tests
import Verif.Props.GeqEnumerator
/-!
# C49 (continued): the test programs for `next_geq`

They accept each index built from lists that end below 4293967295.  So does
`test_next_geq_enumerator`, although the enumerator can answer wrongly (C15): its queries never jump
over more than two slices.  A list that ends at 4293967295 or later keeps `test_next_geq` running.
-/
namespace Sliced

variable {dbg dbg' : Bool} {params : Params} {univ a : Nat} {lists : List (List Nat)} {m : Mem}
  {xs data : List Nat} {σ : Type}

/-- the answer to `next_geq(v)` -/
def answer (xs : List Nat) (v : Nat) : Nat := (xs.find? (fun x => decide (v ≤ x))).getD 4294967295

theorem takeWhile_find (xs : List Nat) (v : Nat) :
    xs[(xs.takeWhile (fun x => decide (x < v))).length]? = xs.find? (fun x => decide (v ≤ x)) := by
  induction xs with
  | nil => rfl
  | cons x xs ih =>
    by_cases h : x < v
    · rw [List.takeWhile_cons_of_pos (by simpa using h), List.length_cons, List.getElem?_cons_succ, ih,
        List.find?_cons_of_neg (by simpa using h)]
    · rw [List.takeWhile_cons_of_neg (by simpa using h), List.length_nil, List.getElem?_cons_zero,
        List.find?_cons_of_pos (by simp; omega)]

theorem lower_bound_spec {p v u : Nat} (hat : (data.drop p).take xs.length = xs) (hu : u ∈ xs)
    (hv : v ≤ u) : lower_bound data p xs.length v = .ok (answer xs v) ∧ v ≤ answer xs v := by
  unfold lower_bound
  rw [hat]
  have h := takeWhile_find xs v
  unfold answer
  cases e : xs.find? (fun x => decide (v ≤ x)) with
  | none =>
    have := List.find?_eq_none.mp e u hu
    simp at this; omega
  | some y =>
    have hy : v ≤ y := by simpa using List.find?_some e
    rw [e] at h
    rw [rdv_at hat h]
    exact ⟨rfl, hy⟩

theorem answer_none {v : Nat} (h : ∀ x ∈ xs, x < v) : answer xs v = 4294967295 := by
  unfold answer
  rw [List.find?_eq_none.mpr]
  · rfl
  · intro x hx
    have := h x hx
    simp; omega

/-- `n` iterations of the second loop -/
theorem jump_loop_spec {body : Nat → σ → Res σ} {last : Nat} (P : Nat → σ → Prop) :
    ∀ (n fuel v : Nat) (s : σ), v + 10000 * n = last → last < 18446744073709551616 → n < fuel → P 0 s →
    (∀ j s, j < n → P j s → ∃ s', body (v + 10000 * j) s = .ok s' ∧ P (j + 1) s') →
    ∃ s', jump_loop body last fuel v s = .ok s' ∧ P n s'
  | n, 0, v, s, _, _, h, _, _ => by omega
  | 0, f + 1, v, s, hl, _, _, h, _ => by
    refine ⟨s, ?_, h⟩
    unfold jump_loop
    rw [if_pos (by omega)]
  | n + 1, f + 1, v, s, hl, hb, hf, h, hs => by
    obtain ⟨s1, e1, h1⟩ := hs 0 s (by omega) h
    rw [Nat.mul_zero, Nat.add_zero] at e1
    obtain ⟨s2, e2, h2⟩ := jump_loop_spec (body := body) (fun j => P (j + 1)) n f (v + 10000) s1
      (last := last) (by omega) hb (by omega) h1 (fun j s hj hp => by
        obtain ⟨s', e', h'⟩ := hs (j + 1) s (by omega) hp
        have e0 : v + 10000 + 10000 * j = v + 10000 * (j + 1) := by omega
        exact ⟨s', e0.symm ▸ e', h'⟩)
    refine ⟨s2, ?_, h2⟩
    unfold jump_loop
    have e3 : u64 (v + 10000) = v + 10000 := by unfold u64; omega
    rw [if_neg (by omega), e1, ok_bind, e3, e2]

/-- the second loop goes on as long as it does not meet `last` -/
theorem jump_loop_endless {body : Nat → σ → Res σ} {last : Nat}
    (hb : ∀ v s, ∃ s', body v s = .ok s') :
    ∀ (fuel v : Nat) (s : σ), (∀ j, j < fuel → u64 (v + 10000 * j) ≠ last) → v < 18446744073709551616 →
      jump_loop body last fuel v s = .error .diverge
  | 0, _, _, _, _ => rfl
  | f + 1, v, s, h, hv => by
    obtain ⟨s1, e1⟩ := hb v s
    have h0 := h 0 (by omega)
    have e0 : u64 v = v := by unfold u64; omega
    rw [Nat.mul_zero, Nat.add_zero, e0] at h0
    unfold jump_loop
    rw [if_neg h0, e1, ok_bind]
    refine jump_loop_endless hb f (u64 (v + 10000)) s1 (fun j hj => ?_)
      (by unfold u64; omega)
    have := h (j + 1) (by omega)
    unfold u64 at this ⊢
    omega

/-- the values that the first loop asks for -/
def askedInside (u : Nat) : List Nat := List.range (u + 1)
/-- the values that the second loop asks for -/
def askedOutside (u : Nat) : List Nat := (List.range 100).map (fun i => u + 1 + 10000 * i)

/-- what both programs need to know about the thing they test: `I vs e` says that in state `e` the
queries `vs` are going to be answered correctly. -/
def Answers (next_geq : σ → Nat → Res (σ × Nat)) (xs : List Nat) (I : List Nat → σ → Prop) : Prop :=
  ∀ v vs e, I (v :: vs) e → ∃ e', next_geq e v = .ok (e', answer xs v) ∧ I vs e'

theorem last_facts (hv : Valid xs) : ∃ u, xs.getLast?.getD 0 = u ∧ u ∈ xs ∧ ∀ x ∈ xs, x ≤ u := by
  have hne := hv.1
  refine ⟨xs.getLast hne, by rw [List.getLast?_eq_some_getLast hne]; rfl, List.getLast_mem hne, ?_⟩
  intro x hx
  have hs := hv.2.1
  rw [← List.dropLast_concat_getLast hne, List.pairwise_append] at hs
  rw [← List.dropLast_concat_getLast hne, List.mem_append] at hx
  rcases hx with hx | hx
  · exact Nat.le_of_lt (hs.2.2 x hx _ (by simp))
  · rw [List.mem_singleton] at hx; omega

theorem range_split (i n : Nat) (h : i < n) :
    List.range' i (n - i) = i :: List.range' (i + 1) (n - (i + 1)) := by
  rw [show n - i = (n - (i + 1)) + 1 by omega, List.range'_succ]

theorem inside_spec {next_geq : σ → Nat → Res (σ × Nat)} {I : List Nat → σ → Prop}
    (hI : Answers next_geq xs I) {u p : Nat} (hu : u ∈ xs) (hu' : u + 1 < 4294967296)
    (hat : (data.drop p).take xs.length = xs) (rest : List Nat) (e : σ) (h0 : I (askedInside u ++ rest) e) :
    ∃ e', forRange (fun v (s : Bool × σ) => do
        let expected ← lower_bound data p xs.length v
        let (e, x) ← next_geq s.2 (u32 v)
        cassert dbg (x ≥ v)
        return (s.1 && (x == expected), e)) (u32 (u + 1)) 0 (true, e) = .ok (true, e') ∧ I rest e' := by
  rw [u32_lt hu']
  obtain ⟨⟨g, e'⟩, e1, h1, h2⟩ := forRange_spec (fun v (s : Bool × σ) => s.1 = true ∧
      I (List.range' v (u + 1 - v) ++ rest) s.2) (u + 1) 0 (true, e)
    ⟨rfl, by rw [Nat.sub_zero, ← List.range_eq_range']; exact h0⟩
    (body := fun v (s : Bool × σ) => do
        let expected ← lower_bound data p xs.length v
        let (e, x) ← next_geq s.2 (u32 v)
        cassert dbg (x ≥ v)
        return (s.1 && (x == expected), e)) (by
      rintro v ⟨g, e⟩ _ hv ⟨hg, hi⟩
      simp only at hg hi
      subst hg
      rw [range_split v (u + 1) (by omega), List.cons_append] at hi
      obtain ⟨e', e1, h1⟩ := hI _ _ _ hi
      obtain ⟨hl, hge⟩ := lower_bound_spec hat hu (v := v) (by omega)
      refine ⟨(true, e'), ?_, rfl, h1⟩
      rw [hl, ok_bind, u32_lt (by omega), e1]
      simp only [ok_bind]
      rw [cassert_of (by simpa using hge)]
      simp)
  simp only at h1 h2
  subst h1
  refine ⟨e', e1, ?_⟩
  rw [Nat.zero_add, Nat.sub_self] at h2
  exact h2

theorem check_next_geq_spec {next_geq : σ → Nat → Res (σ × Nat)} {I : List Nat → σ → Prop}
    (hI : Answers next_geq xs I) (hv : Valid xs) {p fuel : Nat}
    (hlast : xs.getLast?.getD 0 < 4293967295) (hat : (data.drop p).take xs.length = xs)
    (hf : 100 < fuel) (e : σ)
    (h0 : I (askedInside (xs.getLast?.getD 0) ++ askedOutside (xs.getLast?.getD 0)) e) :
    ∃ e', check_next_geq dbg next_geq data fuel xs.length (xs.getLast?.getD 0) p (true, e)
      = .ok (true, e') := by
  obtain ⟨u, hu, hm, hmax⟩ := last_facts hv
  rw [hu] at hlast h0 ⊢
  obtain ⟨e1, he1, h1⟩ := inside_spec (dbg := dbg) hI hm (by omega) hat _ e h0
  unfold check_next_geq
  rw [he1, ok_bind]
  have hu1 : u32 (u + 1) = u + 1 := u32_lt (by omega)
  have hu2 : u32 (u + 1000001) = u + 1000001 := u32_lt (by omega)
  obtain ⟨⟨g, e'⟩, e2, h2, -⟩ := jump_loop_spec (fun j (s : Bool × σ) => s.1 = true ∧
      I ((askedOutside u).drop j) s.2) 100 fuel (u32 (u + 1)) (true, e1) (last := u32 (u + 1000001))
    (by omega) (by omega) hf ⟨rfl, h1⟩
    (body := fun v (s : Bool × σ) => do
      let (e, x) ← next_geq s.2 (u32 v)
      return (s.1 && (x == 4294967295), e)) (by
      rintro j ⟨g, e⟩ hj ⟨hg, hi⟩
      simp only at hg hi
      subst hg
      have hget : (askedOutside u)[j]? = some (u + 1 + 10000 * j) := by
        unfold askedOutside
        rw [List.getElem?_map, List.getElem?_range hj]; rfl
      obtain ⟨hjl, hget⟩ := List.getElem?_eq_some_iff.mp hget
      rw [List.drop_eq_getElem_cons hjl, hget] at hi
      obtain ⟨e', e1, h1⟩ := hI _ _ _ hi
      refine ⟨(true, e'), ?_, rfl, h1⟩
      rw [hu1, u32_lt (by omega), e1, ok_bind, answer_none (fun x hx => by
        have := hmax x hx
        omega)]
      rfl)
  simp only at h2
  subst h2
  exact ⟨e', e2⟩

/-- C49: `test_next_geq` reports that everything is good, if the lists end below 4293967295. -/
theorem C49_next_geq (h : FileAt dbg params univ lists m a)
    (hlast : ∀ xs ∈ keptLists params lists, ∀ x ∈ xs, x < 4293967295) {fuel : Nat} (hf : 100 < fuel) :
    test_next_geq dbg' m a params (collection univ lists) fuel
      = .ok ((keptLists params lists).length, true) := by
  have hg := h.1
  obtain ⟨idx, h⟩ := h.indexed
  unfold test_next_geq
  rw [h.map, ok_bind, test_collection_eq hg.2.1]
  obtain ⟨s, e, hs⟩ := overLists_spec (fun _ (s : Bool × Unit) => s.1 = true) (keptAt params lists) 0
    (true, ()) rfl (body := check_sequence_next_geq dbg' m idx (collection univ lists) fuel) (by
      rintro j xs p ⟨g, u⟩ hj hg
      simp only at hg
      subst hg
      obtain ⟨hk, hat⟩ := keptAt_spec (univ := univ) hj
      have hm := List.mem_of_getElem? hk
      have hv := h.valid _ hm
      obtain ⟨s, b, hs, -, hst⟩ := h.get j _ hk dbg'
      obtain ⟨u, hu, hum, -⟩ := last_facts hv
      have hlt := hlast xs hm u hum
      unfold check_sequence_next_geq
      rw [Nat.zero_add, hs, ok_bind, (C03_cardinality hv hst.stored).1]
      simp only [ok_bind, beq_self_eq_true, Bool.and_self]
      obtain ⟨e', e1⟩ := check_next_geq_spec (dbg := dbg') (fuel := fuel) (data := collection univ lists)
        (next_geq := fun (_ : Unit) v => do
          let x ← s.next_geq dbg' m v
          return ((), x)) (I := fun vs _ => ∀ v ∈ vs, v < 4294967296) (by
          intro v vs e hv'
          refine ⟨(), ?_, fun w hw => hv' w (List.mem_cons_of_mem _ hw)⟩
          have := C06_find (dbg' := dbg') hv hst.stored (hv' v (List.mem_cons_self ..))
          simp only [this, ok_bind, pure_ok, answer]) hv (p := p) (by rw [hu]; exact hlt) hat hf () (by
          intro v hv'
          rw [hu, List.mem_append] at hv'
          rcases hv' with hv' | hv'
          · rw [askedInside, List.mem_range] at hv'; omega
          · rw [askedOutside, List.mem_map] at hv'
            obtain ⟨i, hi, rfl⟩ := hv'
            rw [List.mem_range] at hi; omega)
      exact ⟨_, e1, rfl⟩)
  rw [e, hs, Nat.zero_add, keptAt_length]

/-! ## The enumerator -/

/-- at most two slices are within 65536 of each other -/
theorem close_of_near (hv : Valid xs) {v v' : Nat} (h1 : v ≤ v') (h2 : v' ≤ v + 65536) :
    Close xs v v' := by
  refine ⟨h1, ?_⟩
  have hs := (slicesOf_enumerates hv).1
  have := sorted_length_le (lo := v / 65536) (hi := v' / 65536 + 1)
    (hs.filter (fun i => decide (v / 65536 ≤ i) && decide (i ≤ v' / 65536))) (by
      intro x hx
      rw [List.mem_filter, Bool.and_eq_true, decide_eq_true_eq, decide_eq_true_eq] at hx
      omega)
  omega

theorem consecutive_range' {R : Nat → Nat → Prop} (hR : ∀ v, R v (v + 1)) {rest : List Nat} :
    ∀ (n v : Nat), Consecutive R (v + n) rest → Consecutive R v (List.range' (v + 1) n ++ rest)
  | 0, v, h => h
  | n + 1, v, h => by
    rw [List.range'_succ, List.cons_append]
    exact ⟨hR v, consecutive_range' hR n (v + 1) (by rwa [show v + 1 + n = v + (n + 1) by omega])⟩

theorem consecutive_steps {R : Nat → Nat → Prop} (hR : ∀ v, R v (v + 10000)) (b : Nat) :
    ∀ (n i : Nat), Consecutive R (b + 10000 * i)
      ((List.range' (i + 1) n).map (fun i => b + 10000 * i))
  | 0, i => trivial
  | n + 1, i => by
    rw [List.range'_succ, List.map_cons]
    refine ⟨?_, consecutive_steps hR b n (i + 1)⟩
    rw [show b + 10000 * (i + 1) = b + 10000 * i + 10000 by omega]
    exact hR _

theorem asked_consecutive (hv : Valid xs) (u : Nat) :
    ∃ vs, askedInside u ++ askedOutside u = 0 :: vs ∧ Consecutive (Close xs) 0 vs := by
  refine ⟨List.range' (0 + 1) u ++ askedOutside u, ?_, ?_⟩
  · rw [askedInside, List.range_eq_range', List.range'_succ]; rfl
  · refine consecutive_range' (fun v => close_of_near hv (by omega) (by omega)) u 0 ?_
    rw [Nat.zero_add]
    unfold askedOutside
    rw [List.range_eq_range', show (100 : Nat) = 99 + 1 from rfl, List.range'_succ, List.map_cons]
    refine ⟨close_of_near hv (by omega) (by omega), ?_⟩
    have := consecutive_steps (R := Close xs) (fun v => close_of_near hv (by omega) (by omega)) (u + 1)
      99 0
    rw [Nat.mul_zero] at this
    exact this

/-- C49: `test_next_geq_enumerator` reports that everything is good, if the lists end below
4293967295 - no matter what the lists are.  It cannot reveal the fault of C15. -/
theorem C49_next_geq_enumerator (h : FileAt dbg params univ lists m a)
    (hlast : ∀ xs ∈ keptLists params lists, ∀ x ∈ xs, x < 4293967295) {fuel : Nat} (hf : 100 < fuel) :
    test_next_geq_enumerator dbg' m a params (collection univ lists) fuel
      = .ok ((keptLists params lists).length, true) := by
  have hg := h.1
  obtain ⟨idx, h⟩ := h.indexed
  unfold test_next_geq_enumerator
  rw [h.map, ok_bind, test_collection_eq hg.2.1]
  obtain ⟨s, e, hs⟩ := overLists_spec (fun _ (s : Bool × Unit) => s.1 = true) (keptAt params lists) 0
    (true, ()) rfl (body := check_enumerator_next_geq dbg' m idx (collection univ lists) fuel) (by
      rintro j xs p ⟨g, u⟩ hj hg
      simp only at hg
      subst hg
      obtain ⟨hk, hat⟩ := keptAt_spec (univ := univ) hj
      have hm := List.mem_of_getElem? hk
      have hv := h.valid _ hm
      obtain ⟨s, b, hs, -, hst⟩ := h.get j _ hk dbg'
      obtain ⟨u, hu, hum, -⟩ := last_facts hv
      have hlt := hlast xs hm u hum
      obtain ⟨vs, evs, hcon⟩ := asked_consecutive hv u
      obtain ⟨e, e1, -, e2⟩ := C15_history_partial (dbg' := dbg') hv hst.stored 0 vs hcon (by
        intro v hv'
        rw [← evs, List.mem_append] at hv'
        rcases hv' with hv' | hv'
        · rw [askedInside, List.mem_range] at hv'; omega
        · rw [askedOutside, List.mem_map] at hv'
          obtain ⟨i, hi, rfl⟩ := hv'
          rw [List.mem_range] at hi; omega)
      unfold check_enumerator_next_geq
      rw [Nat.zero_add, hs, ok_bind, (C03_cardinality hv hst.stored).1]
      simp only [ok_bind, beq_self_eq_true, Bool.and_self]
      rw [e1]
      simp only [ok_bind]
      obtain ⟨e', e3⟩ := check_next_geq_spec (dbg := dbg') (fuel := fuel) (data := collection univ lists)
        (next_geq := fun (e : GeqEnum) v => e.next_geq dbg' m v)
        (I := fun vs e => GeqEnum.run dbg' m e vs = .ok (vs.map (answer xs))) (by
          intro v vs e hr
          unfold GeqEnum.run at hr
          cases h1 : e.next_geq dbg' m v with
          | error x => rw [h1] at hr; cases hr
          | ok q =>
            rw [h1, ok_bind] at hr
            simp only at hr
            cases h2 : GeqEnum.run dbg' m q.1 vs with
            | error x => rw [h2] at hr; cases hr
            | ok r =>
              rw [h2] at hr
              simp only [ok_bind, pure_ok, Except.ok.injEq, List.map_cons, List.cons.injEq] at hr
              refine ⟨q.1, ?_, by rw [hr.2] at h2; exact h2⟩
              simp only
              rw [h1, ← hr.1]) hv (p := p) (by rw [hu]; exact hlt) hat hf e (by
          rw [hu, evs]
          exact e2)
      exact ⟨(true, ()), by rw [e3]; rfl, rfl⟩)
  rw [e, hs, Nat.zero_add, keptAt_length]

/-! ## The test cannot see the fault of C15 -/

def jumpFile : List UInt8 :=
  ((build_index true {} (collection 2500000 [jumpList])).toOption.map
    (fun r => save_index r.1 r.2.1)).getD []

theorem jumpFile_check :
    (do
      let idx ← SIndex.mmap (memOf 0 jumpFile 31) 0
      let s ← idx.get true (memOf 0 jumpFile 31) 0
      let e ← GeqEnum.new (memOf 0 jumpFile 31) s
      GeqEnum.run true (memOf 0 jumpFile 31) e [65536, 2162688] : Res (List Nat)).toOption
      = some [65799, 2162689] := by
  decide +kernel

theorem jumpFile_length : jumpFile.length < 1000 := by decide +kernel

theorem jumpFile_at : FileAt true {} 2500000 [jumpList] (memOf 0 jumpFile 31) 0 := by
  have hg : GoodCollection {} 2500000 [jumpList] := by
    refine ⟨by omega, ?_, ?_⟩
    · intro xs hx
      rw [List.mem_singleton] at hx
      subst hx
      decide
    · intro xs hx _
      rw [List.mem_singleton] at hx
      subst hx
      exact jumpList_valid
  obtain ⟨st, e, -⟩ := build_index_spec (dbg := true) hg
  have hf : jumpFile = save_index (2500000 :: startsOf (keptLists {} [jumpList]))
      (allBytes (keptLists {} [jumpList])) := by
    unfold jumpFile
    rw [e]; rfl
  refine ⟨hg, _, _, _, e, ?_, ?_, ?_⟩
  · rw [← hf]
    have := jumpFile_length
    omega
  · rw [← hf]
    exact loaded_memOf _ _ _
  · rw [← hf]
    exact readable_memOf _ _ _

/-- C49: `test_next_geq_enumerator` reports that everything is good about an index on which an
enumerator, asked for two increasing bounds, returns a value that is not in the list. -/
theorem C49_enumerator_fault_unseen {fuel : Nat} (hf : 100 < fuel) :
    ∃ m xs idx s e v v' x x', FileAt true {} 2500000 [xs] m 0 ∧
      test_next_geq_enumerator true m 0 {} (collection 2500000 [xs]) fuel = .ok (1, true) ∧
      SIndex.mmap m 0 = .ok idx ∧ idx.get true m 0 = .ok s ∧ GeqEnum.new m s = .ok e ∧
      v ≤ v' ∧ GeqEnum.run true m e [v, v'] = .ok [x, x'] ∧ x' ∉ xs := by
  have hfile := jumpFile_at
  have hk : keptLists {} [jumpList] = [jumpList] := by decide
  have ht := C49_next_geq_enumerator (dbg' := true) hfile (by
    rw [hk]
    intro xs hx x hx'
    rw [List.mem_singleton] at hx
    subst hx
    have : ∀ x ∈ jumpList, x < 3000000 := by decide
    have := this x hx'
    omega) hf
  rw [hk] at ht
  have hc := jumpFile_check
  cases h1 : SIndex.mmap (memOf 0 jumpFile 31) 0 with
  | error x => rw [h1] at hc; cases hc
  | ok idx =>
    rw [h1, ok_bind] at hc
    cases h2 : idx.get true (memOf 0 jumpFile 31) 0 with
    | error x => rw [h2] at hc; cases hc
    | ok s =>
      rw [h2, ok_bind] at hc
      cases h3 : GeqEnum.new (memOf 0 jumpFile 31) s with
      | error x => rw [h3] at hc; cases hc
      | ok e =>
        rw [h3, ok_bind] at hc
        cases h4 : GeqEnum.run true (memOf 0 jumpFile 31) e [65536, 2162688] with
        | error x => rw [h4] at hc; cases hc
        | ok r =>
          rw [h4] at hc
          refine ⟨memOf 0 jumpFile 31, jumpList, idx, s, e, 65536, 2162688, 65799, 2162689, hfile,
            ht, h1, h2, h3, by omega, ?_, by decide⟩
          rw [h4]
          exact congrArg _ (Option.some.inj hc)

/-! ## Lists that end late -/

theorem never_meets {u j : Nat} (h1 : 4293967295 ≤ u) (h2 : u < 4294901760)
    (hj : j < 887288389945000036) : u64 (u + 1 + 10000 * j) ≠ u32 (u + 1000001) := by
  intro h
  have e : u32 (u + 1000001) + 4293967295 = u := by unfold u32; omega
  have hq := Nat.div_add_mod (u + 1 + 10000 * j) 18446744073709551616
  unfold u64 at h
  rw [h] at hq
  generalize (u + 1 + 10000 * j) / 18446744073709551616 = q at hq
  have h3 : 625 * j + 268435456 = 1152921504606846976 * q + 62500 := by omega
  clear hq h e h1 h2
  omega

/-- C49: if some list ends at 4293967295 or later, `test_next_geq` is still running after
887288389945000036 iterations: the bound of its last loop is computed in 32 bits and wraps, the loop
variable has 64. -/
theorem C49_next_geq_endless (h : FileAt dbg params univ lists m a)
    (hlast : ∃ xs ∈ keptLists params lists, ∃ x ∈ xs, 4293967295 ≤ x) {fuel : Nat} (hf : 100 < fuel)
    (hf' : fuel ≤ 887288389945000036) :
    test_next_geq dbg' m a params (collection univ lists) fuel = .error .diverge := by
  have hg := h.1
  obtain ⟨idx, h⟩ := h.indexed
  have hfail : ∃ xs ∈ keptLists params lists, ¬ ∀ x ∈ xs, x < 4293967295 := by
    obtain ⟨xs, h1, x, h2, h3⟩ := hlast
    exact ⟨xs, h1, fun h => by have := h x h2; omega⟩
  obtain ⟨k, xs, hk, hn, hfirst⟩ := first_failure hfail
  have hk' := hk
  rw [← keptAt_fst, List.getElem?_map, Option.map_eq_some_iff] at hk'
  obtain ⟨⟨xs', q⟩, hq, rfl⟩ := hk'
  unfold test_next_geq
  rw [h.map, ok_bind, test_collection_eq hg.2.1]
  have start : ∀ (j : Nat) (xs : List Nat) (p : Nat), (keptAt params lists)[j]? = some (xs, p) →
      ((collection univ lists).drop p).take xs.length = xs ∧ Valid xs ∧ ∃ s : SSeq,
      check_sequence_next_geq dbg' m idx (collection univ lists) fuel j xs.length
        (xs.getLast?.getD 0) p (true, ()) =
      check_next_geq dbg' (fun _ v => do
        let x ← s.next_geq dbg' m v
        return ((), x)) (collection univ lists) fuel xs.length (xs.getLast?.getD 0) p (true, ()) ∧
      Answers (fun (_ : Unit) v => do
        let x ← s.next_geq dbg' m v
        return ((), x)) xs (fun vs _ => ∀ v ∈ vs, v < 4294967296) := by
    intro j xs p hj
    obtain ⟨hk, hat⟩ := keptAt_spec (univ := univ) hj
    have hv := h.valid _ (List.mem_of_getElem? hk)
    obtain ⟨s, b, hs, -, hst⟩ := h.get j _ hk dbg'
    refine ⟨hat, hv, s, ?_, ?_⟩
    · unfold check_sequence_next_geq
      rw [hs, ok_bind, (C03_cardinality hv hst.stored).1]
      simp only [ok_bind, beq_self_eq_true, Bool.and_self]
    · intro v vs e hv'
      refine ⟨(), ?_, fun w hw => hv' w (List.mem_cons_of_mem _ hw)⟩
      have := C06_find (dbg' := dbg') hv hst.stored (hv' v (List.mem_cons_self ..))
      simp only [this, ok_bind, pure_ok, answer]
  refine overLists_err (fun _ (s : Bool × Unit) => s.1 = true)
    (keptAt params lists) 0 (true, ()) k xs' q rfl hq (fun j ys p s hjk hj hs => ?_) (fun s hs => ?_)
  · obtain ⟨g, _⟩ := s
    simp only at hs
    subst hs
    obtain ⟨hat, hv, s, e1, hI⟩ := start j ys p hj
    obtain ⟨u, hu, hum, -⟩ := last_facts hv
    have hlt := hfirst j ys hjk (keptAt_spec (univ := univ) hj).1 u hum
    rw [Nat.zero_add, e1]
    obtain ⟨e', e3⟩ := check_next_geq_spec (dbg := dbg') (fuel := fuel) hI hv
      (by rw [hu]; exact hlt) hat hf () (by
        intro v hv'
        rw [hu, List.mem_append] at hv'
        rcases hv' with hv' | hv'
        · rw [askedInside, List.mem_range] at hv'; omega
        · rw [askedOutside, List.mem_map] at hv'
          obtain ⟨i, hi, rfl⟩ := hv'
          rw [List.mem_range] at hi; omega)
    exact ⟨_, e3, rfl⟩
  · obtain ⟨g, _⟩ := s
    simp only at hs
    subst hs
    obtain ⟨hat, hv, s, e1, hI⟩ := start k xs' q hq
    obtain ⟨u, hu, hum, hmax⟩ := last_facts hv
    have hge : 4293967295 ≤ u := by
      refine Classical.byContradiction (fun hc => hn (fun x hx => ?_))
      have := hmax x hx
      omega
    have hub := hv.2.2 u hum
    rw [Nat.zero_add, e1, hu]
    obtain ⟨e', he', -⟩ := inside_spec (dbg := dbg') (rest := []) hI hum (by omega) hat () (by
        intro v hv'
        rw [List.append_nil, askedInside, List.mem_range] at hv'
        omega)
    unfold check_next_geq
    rw [he', ok_bind]
    refine jump_loop_endless (fun v s' => ?_) fuel _ _ (fun j hj => ?_) ?_
    · obtain ⟨e2, h2, -⟩ := hI (u32 v) [] () (by
        intro w hw
        rw [List.mem_singleton] at hw
        rw [hw]
        exact Nat.mod_lt _ (by omega))
      refine ⟨_, by rw [h2, ok_bind]; rfl⟩
    · rw [u32_lt (by omega)]
      exact never_meets hge (by omega) (by omega)
    · rw [u32_lt (by omega)]; omega

end Sliced
