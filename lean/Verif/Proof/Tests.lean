import Verif.Model.Tests
import Verif.Proof.Index
import Verif.Proof.Tools
/-! # The loop over the collection of the test programs, as a loop over the lists that are kept -/
namespace Sliced

variable {σ : Type}

/-- the loop over lists `xs` whose elements are in the file from word `p` on -/
def overLists (body : (k n univ p : Nat) → Bool × σ → Res (Bool × σ)) :
    (ls : List (List Nat × Nat)) → (k : Nat) → Bool × σ → Res (Nat × Bool)
  | [], k, s => .ok (k, s.1)
  | (xs, p) :: ls, k, s => do
    let s ← body k xs.length (xs.getLast?.getD 0) p s
    overLists body ls (k + 1) s

/-- the lists with the positions of their first elements; `i` is the position of the first length -/
def posFrom : Nat → List (List Nat) → List (List Nat × Nat)
  | _, [] => []
  | i, xs :: ls => (xs, i + 1) :: posFrom (i + xs.length + 1) ls

/-- the lists that are kept, with their positions in the collection file -/
def keptAt (params : Params) (lists : List (List Nat)) : List (List Nat × Nat) :=
  (posFrom 2 lists).filter (fun q => decide (Kept params q.1))

theorem posFrom_fst (i : Nat) (lists : List (List Nat)) : (posFrom i lists).map Prod.fst = lists := by
  induction lists generalizing i with
  | nil => rfl
  | cons xs ls ih => rw [posFrom, List.map_cons, ih]

theorem filter_fst (f : List Nat → Bool) (l : List (List Nat × Nat)) :
    (l.filter (fun q => f q.1)).map Prod.fst = (l.map Prod.fst).filter f := by
  induction l with
  | nil => rfl
  | cons q l ih =>
    rw [List.map_cons]
    cases h : f q.1
    · rw [List.filter_cons_of_neg (by simp [h]), List.filter_cons_of_neg (by simp [h]), ih]
    · rw [List.filter_cons_of_pos (by simp [h]), List.filter_cons_of_pos (by simp [h]), List.map_cons,
        ih]

theorem keptAt_fst (params : Params) (lists : List (List Nat)) :
    (keptAt params lists).map Prod.fst = keptLists params lists := by
  unfold keptAt keptLists
  rw [filter_fst (fun xs => decide (Kept params xs)), posFrom_fst]

theorem keptAt_length (params : Params) (lists : List (List Nat)) :
    (keptAt params lists).length = (keptLists params lists).length := by
  rw [← keptAt_fst, List.length_map]

/-- the elements are where they should be -/
theorem posFrom_at {pre : List Nat} {lists : List (List Nat)} {xs : List Nat} {p : Nat}
    (h : (xs, p) ∈ posFrom pre.length lists) :
    ((pre ++ lists.flatMap (fun xs => xs.length :: xs)).drop p).take xs.length = xs := by
  induction lists generalizing pre with
  | nil => simp [posFrom] at h
  | cons ys ls ih =>
    rw [posFrom, List.mem_cons] at h
    rw [List.flatMap_cons]
    rcases h with h | h
    · cases h
      rw [List.drop_append, List.drop_eq_nil_of_le (by omega)]
      simp
    · rw [show pre.length + ys.length + 1 = (pre ++ ys.length :: ys).length by
        rw [List.length_append, List.length_cons]; omega] at h
      rw [← List.append_assoc]
      exact ih h

theorem keptAt_spec {params : Params} {lists : List (List Nat)} {univ j p : Nat} {xs : List Nat}
    (h : (keptAt params lists)[j]? = some (xs, p)) :
    (keptLists params lists)[j]? = some xs ∧
      ((collection univ lists).drop p).take xs.length = xs := by
  constructor
  · rw [← keptAt_fst, List.getElem?_map, h]; rfl
  · have hm := List.mem_of_getElem? h
    unfold keptAt at hm
    rw [List.mem_filter] at hm
    exact posFrom_at (pre := [1, univ]) hm.1

theorem rdv_at {data xs : List Nat} {p j x : Nat} (h : (data.drop p).take xs.length = xs)
    (hx : xs[j]? = some x) : rdv data (p + j) = .ok x := by
  have hj : j < xs.length := (List.getElem?_eq_some_iff.mp hx).1
  apply rdv_of
  rw [← hx]
  generalize xs.length = n at *
  rw [← h, List.getElem?_take_of_lt hj, List.getElem?_drop]

theorem test_loop_eq {params : Params} {body : (k n univ p : Nat) → Bool × σ → Res (Bool × σ)}
    {lists : List (List Nat)} (hlen : ∀ xs ∈ lists, xs.length < 4294967295) {pre : List Nat}
    {fuel : Nat} (hf : lists.length < fuel) (k : Nat) (s : Bool × σ) :
    test_loop params (pre ++ lists.flatMap (fun xs => xs.length :: xs)) body fuel pre.length k s
      = overLists body ((posFrom pre.length lists).filter (fun q => decide (Kept params q.1))) k s := by
  induction lists generalizing pre fuel k s with
  | nil =>
    obtain ⟨f, rfl⟩ : ∃ f, fuel = f + 1 := ⟨fuel - 1, by simp only [List.length_nil] at hf; omega⟩
    unfold test_loop
    rw [if_neg (by simp)]
    rfl
  | cons xs lists ih =>
    obtain ⟨f, rfl⟩ : ∃ f, fuel = f + 1 := ⟨fuel - 1, by simp only [List.length_cons] at hf; omega⟩
    have hl := hlen xs (List.mem_cons_self ..)
    have e1 : pre ++ (xs :: lists).flatMap (fun xs => xs.length :: xs)
        = (pre ++ (xs.length :: xs)) ++ lists.flatMap (fun xs => xs.length :: xs) := by
      rw [List.flatMap_cons, List.append_assoc]
    have e2 : pre.length + u32 (xs.length + 1) = (pre ++ (xs.length :: xs)).length := by
      unfold u32
      rw [Nat.mod_eq_of_lt (by omega), List.length_append, List.length_cons]
    have e3 : pre.length + xs.length + 1 = (pre ++ (xs.length :: xs)).length := by
      rw [List.length_append, List.length_cons]; omega
    have ih' := fun k s => ih (pre := pre ++ (xs.length :: xs))
      (fun y hy => hlen y (List.mem_cons_of_mem _ hy))
      (fuel := f) (by simp only [List.length_cons] at hf; omega) k s
    rw [e1]
    generalize hd : lists.flatMap (fun xs => xs.length :: xs) = tl at *
    have hn : rdv ((pre ++ (xs.length :: xs)) ++ tl) pre.length = .ok xs.length := by
      apply rdv_of
      simp
    obtain ⟨v, hu, hv1, hv2⟩ : ∃ v, rdv ((pre ++ (xs.length :: xs)) ++ tl) (pre.length + xs.length) = .ok v
        ∧ (xs ≠ [] → xs.getLast? = some v) ∧ (xs = [] → v = 0) := by
      rcases xs with _ | ⟨x, t⟩
      · refine ⟨0, ?_, by simp, fun _ => rfl⟩
        apply rdv_of
        simp
      · refine ⟨(x :: t).getLast (by simp), ?_, fun _ => List.getLast?_eq_some_getLast _, by simp⟩
        apply rdv_of
        rw [List.append_assoc, List.getElem?_append_right (by omega), Nat.add_sub_cancel_left,
          List.getElem?_append_left (by simp), List.length_cons, List.getElem?_cons_succ,
          List.getLast_eq_getElem]
        simp
    have hp := pass_iff (params := params) hv1 hv2
    unfold test_loop
    rw [if_pos (by simp only [List.length_append, List.length_cons]; omega), hn]
    simp only [ok_bind]
    rw [hu]
    simp only [ok_bind, posFrom]
    by_cases hk : Kept params xs
    · rw [if_pos (hp.mpr hk), List.filter_cons_of_pos (by simpa using hk), overLists, e2, e3, hv1 hk.1]
      simp only [ih']
      rfl
    · rw [if_neg (fun h => hk (hp.mp h)), List.filter_cons_of_neg (by simpa using hk), e2, e3, ih']

theorem lists_length_le (lists : List (List Nat)) :
    lists.length ≤ (lists.flatMap (fun xs => xs.length :: xs)).length := by
  induction lists with
  | nil => simp
  | cons a l ih => simp only [List.flatMap_cons, List.length_append, List.length_cons]; omega

theorem test_collection_eq {dbg : Bool} {params : Params}
    {body : (k n univ p : Nat) → Bool × σ → Res (Bool × σ)} {univ : Nat} {lists : List (List Nat)}
    (hlen : ∀ xs ∈ lists, xs.length < 4294967295) (s : σ) :
    test_collection dbg params (collection univ lists) body s
      = overLists body (keptAt params lists) 0 (true, s) := by
  have h := test_loop_eq (params := params) (body := body) hlen (pre := [1, univ])
    (fuel := (collection univ lists).length + 1) (by
      have := lists_length_le lists
      unfold collection
      simp only [List.length_cons]
      omega) 0 (true, s)
  unfold test_collection
  rw [show rdv (collection univ lists) 0 = .ok 1 from rfl]
  simp only [ok_bind]
  rw [cassert_of (by rfl)]
  exact h

/-- all bodies succeed -/
theorem overLists_spec {body : (k n univ p : Nat) → Bool × σ → Res (Bool × σ)}
    (P : Nat → Bool × σ → Prop) : ∀ (ls : List (List Nat × Nat)) (k : Nat) (s : Bool × σ), P k s →
    (∀ j xs p s, ls[j]? = some (xs, p) → P (k + j) s →
      ∃ s', body (k + j) xs.length (xs.getLast?.getD 0) p s = .ok s' ∧ P (k + j + 1) s') →
    ∃ s', overLists body ls k s = .ok (k + ls.length, s'.1) ∧ P (k + ls.length) s'
  | [], k, s, h, _ => ⟨s, rfl, h⟩
  | (xs, p) :: ls, k, s, h, hb => by
    obtain ⟨s1, e1, h1⟩ := hb 0 xs p s rfl h
    obtain ⟨s2, e2, h2⟩ := overLists_spec P ls (k + 1) s1 h1 (fun j ys q s hy hs => by
      have := hb (j + 1) ys q s (by rw [List.getElem?_cons_succ]; exact hy)
        (by rwa [show k + (j + 1) = k + 1 + j by omega])
      rwa [show k + (j + 1) = k + 1 + j by omega] at this)
    refine ⟨s2, ?_, by rwa [List.length_cons, show k + (ls.length + 1) = k + 1 + ls.length by omega]⟩
    rw [overLists, show body k _ _ _ _ = .ok s1 from e1, ok_bind, e2, List.length_cons,
      show k + (ls.length + 1) = k + 1 + ls.length by omega]

/-- the body of list `i` fails -/
theorem overLists_err {body : (k n univ p : Nat) → Bool × σ → Res (Bool × σ)} {e : Err}
    (P : Nat → Bool × σ → Prop) : ∀ (ls : List (List Nat × Nat)) (k : Nat) (s : Bool × σ) (i : Nat)
    (ys : List Nat) (q : Nat), P k s → ls[i]? = some (ys, q) →
    (∀ j xs p s, j < i → ls[j]? = some (xs, p) → P (k + j) s →
      ∃ s', body (k + j) xs.length (xs.getLast?.getD 0) p s = .ok s' ∧ P (k + j + 1) s') →
    (∀ s, P (k + i) s → body (k + i) ys.length (ys.getLast?.getD 0) q s = .error e) →
    overLists body ls k s = .error e
  | [], k, s, i, ys, q, h, hi, _, _ => by simp at hi
  | (xs, p) :: ls, k, s, 0, ys, q, h, hi, hb, he => by
    simp only [List.getElem?_cons_zero, Option.some.injEq, Prod.mk.injEq] at hi
    obtain ⟨rfl, rfl⟩ := hi
    rw [overLists, show body k _ _ _ _ = .error e from he s h]
    rfl
  | (xs, p) :: ls, k, s, i + 1, ys, q, h, hi, hb, he => by
    obtain ⟨s1, e1, h1⟩ := hb 0 xs p s (by omega) rfl h
    rw [List.getElem?_cons_succ] at hi
    rw [overLists, show body k _ _ _ _ = .ok s1 from e1, ok_bind]
    refine overLists_err P ls (k + 1) s1 i ys q h1 hi ?_ ?_
    · intro j ys q s hj hy hs
      have := hb (j + 1) ys q s (by omega) (by rw [List.getElem?_cons_succ]; exact hy)
        (by rwa [show k + (j + 1) = k + 1 + j by omega])
      rwa [show k + (j + 1) = k + 1 + j by omega] at this
    · intro s hs
      have := he s (by rwa [show k + (i + 1) = k + 1 + i by omega])
      rwa [show k + (i + 1) = k + 1 + i by omega] at this

/-- success implies that all bodies succeeded and left `good` set -/
theorem overLists_sound {body : (k n univ p : Nat) → Bool × σ → Res (Bool × σ)}
    (hmono : ∀ k n univ p s s', body k n univ p s = .ok s' → s'.1 = true → s.1 = true) :
    ∀ (ls : List (List Nat × Nat)) (k : Nat) (s : Bool × σ) (c : Nat),
    overLists body ls k s = .ok (c, true) →
    c = k + ls.length ∧ s.1 = true ∧ ∀ j xs p, ls[j]? = some (xs, p) →
      ∃ s s', body (k + j) xs.length (xs.getLast?.getD 0) p s = .ok s' ∧ s'.1 = true
  | [], k, s, c, h => by
    simp only [overLists, Except.ok.injEq, Prod.mk.injEq] at h
    exact ⟨h.1.symm, h.2, by simp⟩
  | (xs, p) :: ls, k, s, c, h => by
    rw [overLists] at h
    cases e1 : body k xs.length (xs.getLast?.getD 0) p s with
    | error x => rw [e1] at h; cases h
    | ok s1 =>
      rw [e1, ok_bind] at h
      obtain ⟨h1, h2, h3⟩ := overLists_sound hmono ls (k + 1) s1 c h
      refine ⟨by rw [List.length_cons]; omega, hmono _ _ _ _ _ _ e1 h2, ?_⟩
      intro j ys q hj
      cases j with
      | zero =>
        simp only [List.getElem?_cons_zero, Option.some.injEq, Prod.mk.injEq] at hj
        obtain ⟨rfl, rfl⟩ := hj
        exact ⟨s, s1, e1, h2⟩
      | succ j =>
        rw [List.getElem?_cons_succ] at hj
        have := h3 j ys q hj
        rwa [show k + 1 + j = k + (j + 1) by omega] at this

end Sliced
