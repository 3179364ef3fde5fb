import Verif.Props.TestsSound
/-!
# C54: the test programs on the index of another collection, or with other parameters

The index is that of the collection `lists` with the parameters `params`; the test program is given the
collection `lists'` and the parameters `params'`.
-/
namespace Sliced

variable {dbg dbg' : Bool} {params params' : Params} {univ univ' a : Nat}
variable {lists lists' : List (List Nat)} {m : Mem}

theorem prefix_of_get {α : Type} : ∀ {l l' : List α},
    (∀ (j : Nat) x, l[j]? = some x → l'[j]? = some x) → l <+: l'
  | [], _, _ => List.nil_prefix
  | x :: l, l', h => by
    have h0 := h 0 x rfl
    match l' with
    | [] => cases h0
    | y :: l' =>
      cases h0
      exact List.cons_prefix_cons.mpr ⟨rfl, prefix_of_get (fun j z hz => h (j + 1) z hz)⟩

/-- In a debug build a sequence that can be accessed is one of the index; in a release build the number
of lists has to be compared first. -/
theorem Indexed.get_inv {ks : List (List Nat)} {idx : SIndex} {j n : Nat} {s : SSeq}
    (h : Indexed dbg ks univ m a idx) (hmode : dbg' = true ∨ n ≤ ks.length) (hj : j < n)
    (hget : idx.get dbg' m j = .ok s) : ∃ ys, ks[j]? = some ys ∧ Valid ys ∧ Stored dbg ys 31 m s := by
  have hlt : j < ks.length := by
    rcases hmode with rfl | hn
    · rw [← h.size]
      unfold SIndex.get at hget
      by_cases hlt : j < idx.size
      · exact hlt
      · rw [decide_eq_false hlt] at hget
        cases hget
    · omega
  have hys : ks[j]? = some ks[j] := List.getElem?_eq_getElem hlt
  obtain ⟨s', b, e, -, hst⟩ := h.get j _ hys dbg'
  rw [hget] at e
  cases e
  exact ⟨_, hys, h.valid _ (List.mem_of_getElem? hys), hst.stored⟩

/-- C54: `test_decode` accepts exactly if the lists of the test are the first lists of the index.  That
the index holds more lists, or another universe, is not noticed. -/
theorem C54_decode (h : FileAt dbg params univ lists m a)
    (hlen : ∀ xs ∈ lists', xs.length < 4294967295)
    (hroom : ∀ xs ∈ keptLists params' lists', HasRoom xs univ)
    (hmode : dbg' = true ∨ (keptLists params' lists').length ≤ (keptLists params lists).length) :
    (∃ c, test_decode dbg' m a params' (collection univ' lists') = .ok (c, true)) ↔
      keptLists params' lists' <+: keptLists params lists := by
  obtain ⟨idx, hi⟩ := h.indexed
  constructor
  · rintro ⟨c, e⟩
    obtain ⟨idx', e1, -, hall⟩ := C50_decode hlen e
    rw [hi.map] at e1
    cases e1
    refine prefix_of_get (fun j xs hj => ?_)
    obtain ⟨s, out, out', g1, g2, g3, g4⟩ := hall j xs hj
    obtain ⟨ys, k1, k2, k3⟩ := hi.get_inv hmode (List.getElem?_eq_some_iff.mp hj).1 g1
    obtain ⟨d1, d2⟩ := C43_decode (dbg' := dbg') k2 k3 out
    by_cases hr : HasRoom ys out.length
    · obtain ⟨out2, e2, hw⟩ := d1 hr
      rw [g3] at e2
      simp only [Except.ok.injEq, Prod.mk.injEq] at e2
      obtain ⟨l1, rfl⟩ := e2
      have : xs = ys := by
        apply List.ext_getElem? 
        intro i
        by_cases hi : i < ys.length
        · have h1 := hw.2.2.1 i hi
          rw [Nat.zero_add] at h1
          rw [← g4, List.getElem?_take_of_lt (by omega), h1]
        · rw [List.getElem?_eq_none (by omega), List.getElem?_eq_none (by omega)]
      rw [this]
      exact k1
    · rw [d2 hr] at g3
      cases g3
  · intro hp
    exact ⟨_, (accept_decode hi hlen hp).1 hroom⟩

/-- C54: the same for `test_select`. -/
theorem C54_select (h : FileAt dbg params univ lists m a)
    (hlen : ∀ xs ∈ lists', xs.length < 4294967295)
    (hmode : dbg' = true ∨ (keptLists params' lists').length ≤ (keptLists params lists).length) :
    (∃ c, test_select dbg' m a params' (collection univ' lists') = .ok (c, true)) ↔
      keptLists params' lists' <+: keptLists params lists := by
  obtain ⟨idx, hi⟩ := h.indexed
  constructor
  · rintro ⟨c, e⟩
    obtain ⟨idx', e1, -, hall⟩ := C50_select hlen e
    rw [hi.map] at e1
    cases e1
    refine prefix_of_get (fun j xs hj => ?_)
    obtain ⟨s, g1, g2, g3⟩ := hall j xs hj
    obtain ⟨ys, k1, k2, k3⟩ := hi.get_inv hmode (List.getElem?_eq_some_iff.mp hj).1 g1
    rw [(C03_cardinality k2 k3).1] at g2
    have hl : ys.length = xs.length := Except.ok.inj g2
    have : xs = ys := by
      apply List.ext_getElem? 
      intro i
      by_cases hi : i < ys.length
      · have hx : xs[i]? = some xs[i] := List.getElem?_eq_getElem (by omega)
        obtain ⟨v, hv⟩ := g3 i _ hx
        rw [C05_select k2 k3 hi] at hv
        simp only [Except.ok.injEq, Prod.mk.injEq, true_and] at hv
        rw [hx, List.getElem?_eq_getElem hi, hv]
      · rw [List.getElem?_eq_none (by omega), List.getElem?_eq_none (by omega)]
    rw [this]
    exact k1
  · intro hp
    exact ⟨_, accept_select hi hlen hp⟩

/-- a strictly increasing list inside of another one of the same length -/
theorem sorted_eq_of_subset {xs ys : List Nat} (hx : xs.Pairwise (· < ·)) (hy : ys.Pairwise (· < ·))
    (hl : ys.length = xs.length) (hsub : ∀ x ∈ xs, x ∈ ys) : xs = ys := by
  have hf : ys.filter (fun y => decide (y ∈ xs)) = xs := by
    apply sorted_ext (hy.sublist List.filter_sublist) hx
    intro v
    rw [List.mem_filter]
    simp only [decide_eq_true_eq]
    exact ⟨fun h => h.2, fun h => ⟨hsub v h, h⟩⟩
  have hs : (ys.filter (fun y => decide (y ∈ xs))).Sublist ys := List.filter_sublist
  rw [hf] at hs
  exact hs.eq_of_length hl.symm

/-- C54: the same for `test_contains`, if the lists of the test are strictly increasing. -/
theorem C54_contains (h : FileAt dbg params univ lists m a) (hg : GoodCollection params' univ' lists')
    (hmode : dbg' = true ∨ (keptLists params' lists').length ≤ (keptLists params lists).length) :
    (∃ c, test_contains dbg' m a params' (collection univ' lists') = .ok (c, true)) ↔
      keptLists params' lists' <+: keptLists params lists := by
  obtain ⟨idx, hi⟩ := h.indexed
  constructor
  · rintro ⟨c, e⟩
    obtain ⟨idx', e1, -, hall⟩ := C50_contains hg.2.1 e
    rw [hi.map] at e1
    cases e1
    refine prefix_of_get (fun j xs hj => ?_)
    obtain ⟨s, g1, g2, g3⟩ := hall j xs hj
    obtain ⟨ys, k1, k2, k3⟩ := hi.get_inv hmode (List.getElem?_eq_some_iff.mp hj).1 g1
    rw [(C03_cardinality k2 k3).1] at g2
    have hl : ys.length = xs.length := Except.ok.inj g2
    have hv := keptLists_valid hg xs (List.mem_of_getElem? hj)
    rw [sorted_eq_of_subset hv.2.1 k2.2.1 hl (fun x hx => ?_)]
    · exact k1
    · have := g3 x hx
      rw [C04_contains k2 k3 (by have := hv.2.2 x hx; omega)] at this
      exact of_decide_eq_true (Except.ok.inj this)
  · intro hp
    exact ⟨_, accept_contains hi hg.2.1 hp⟩

/-- C54: `test_enumerator` does not compare the lengths.  It also accepts an index whose lists go on
behind those of the test. -/
theorem C54_enumerator (h : FileAt dbg params univ lists m a)
    (hlen : ∀ xs ∈ lists', xs.length < 4294967295)
    (hpre : ∀ (j : Nat) xs, (keptLists params' lists')[j]? = some xs →
      ∃ ys, (keptLists params lists)[j]? = some ys ∧ xs <+: ys) :
    test_enumerator dbg' m a params' (collection univ' lists')
      = .ok ((keptLists params' lists').length, true) := by
  obtain ⟨idx, hi⟩ := h.indexed
  exact accept_enumerator hi hlen hpre

/-- An index of three lists, and tests that know only one of them, or none of them completely. -/
example : ∃ m, FileAt true { size := 0 } 80000 sampleColl m 4096 ∧
    (∃ c, test_decode true m 4096 {} (collection 99 [[3, 5, 300, 70000]]) = .ok (c, true)) ∧
    (¬ ∃ c, test_select true m 4096 {} (collection 80000 [[3, 5, 300, 70000], [8]]) = .ok (c, true)) ∧
    (¬ ∃ c, test_contains true m 4096 { size := 1 } (collection 80000 sampleColl) = .ok (c, true)) ∧
    test_enumerator false m 4096 {} (collection 80000 [[3, 5], [7], [3]]) = .ok (3, true) := by
  obtain ⟨m, h⟩ := queryFile true
  refine ⟨m, h, ?_, ?_, ?_, ?_⟩
  · refine (C54_decode h (by decide) ?_ (Or.inl rfl)).mpr (by rw [queryLists]; decide)
    intro xs hx
    have : xs = [3, 5, 300, 70000] := by
      have h1 := (List.mem_filter.mp hx).1
      simpa using h1
    subst this
    exact hasRoom_spare (by decide)
  · rw [C54_select h (by decide) (Or.inl rfl), queryLists]
    decide
  · rw [C54_contains h sampleColl_good (Or.inl rfl), queryLists]
    decide
  · refine C54_enumerator h (by decide) ?_
    intro j xs hj
    rw [queryLists]
    have hk : keptLists {} [[3, 5], [7], [3]] = [[3, 5], [7], [3]] := by decide
    rw [hk] at hj
    match j with
    | 0 => cases hj; exact ⟨_, rfl, by decide⟩
    | 1 => cases hj; exact ⟨_, rfl, by decide⟩
    | 2 => cases hj; exact ⟨_, rfl, by decide⟩
    | j + 3 => cases hj

end Sliced
