import Verif.Props.TestsNextGeq
import Verif.Props.TestsSets
/-!
# C50: what the test programs establish

The index file is arbitrary here: any memory at all.  If a test program reports that everything is
good, then the operation it tests returned the right answer for every list of the collection.
-/
namespace Sliced

variable {σ : Type} {dbg : Bool} {params : Params} {univ a : Nat} {lists : List (List Nat)} {m : Mem}

theorem bind_ok {α β : Type} {x : Res α} {f : α → Res β} {b : β} (h : x >>= f = .ok b) :
    ∃ v, x = .ok v ∧ f v = .ok b := by
  cases x with
  | error e => cases h
  | ok v => exact ⟨v, rfl, h⟩

/-- a loop that ends well went well all along -/
theorem forRange_sound {body : Nat → σ → Res σ} (good : σ → Bool)
    (hmono : ∀ i s s', body i s = .ok s' → good s' = true → good s = true) (n : Nat) :
    ∀ (i : Nat) (s s' : σ), forRange body n i s = .ok s' → good s' = true →
    good s = true ∧ ∃ f : Nat → σ, f i = s ∧ f (i + n) = s' ∧
      ∀ k, i ≤ k → k < i + n → body k (f k) = .ok (f (k + 1)) ∧ good (f (k + 1)) = true := by
  induction n with
  | zero =>
    intro i s s' h hg
    simp only [forRange, Except.ok.injEq] at h
    subst h
    exact ⟨hg, fun _ => s, rfl, rfl, fun k h1 h2 => by omega⟩
  | succ n ih =>
    intro i s s' h hg
    rw [forRange] at h
    obtain ⟨s1, e1, h⟩ := bind_ok h
    obtain ⟨g1, f, f1, f2, f3⟩ := ih (i + 1) s1 s' h hg
    refine ⟨hmono i s s1 e1 g1, fun k => if k = i then s else f k, by simp, ?_, ?_⟩
    · simp only
      rw [if_neg (by omega), show i + (n + 1) = i + 1 + n by omega, f2]
    · intro k h1 h2
      by_cases hk : k = i
      · subst hk
        simp only [if_true]
        rw [if_neg (by omega), f1]
        exact ⟨e1, g1⟩
      · simp only [if_neg hk]
        rw [if_neg (by omega)]
        exact f3 k (by omega) (by omega)

/-- from the position in the file to the element -/
theorem rdv_inv {data xs : List Nat} {p j x v : Nat} (h : (data.drop p).take xs.length = xs)
    (hx : xs[j]? = some x) (e : rdv data (p + j) = .ok v) : v = x := by
  rw [rdv_at h hx] at e
  exact (Except.ok.inj e).symm

theorem compare_lists_steps {data out : List Nat} {p n : Nat} {g : Bool}
    (h : compare_lists data out p n g = .ok true) :
    g = true ∧ ∀ i, i < n → ∃ x, rdv data (p + i) = .ok x ∧ rdv out i = .ok x := by
  unfold compare_lists at h
  have step : ∀ (i : Nat) (s s' : Bool), (do
      let expected ← rdv data (p + i)
      let got ← rdv out i
      return s && (expected == got) : Res Bool) = .ok s' → s' = true →
      s = true ∧ ∃ x, rdv data (p + i) = .ok x ∧ rdv out i = .ok x := by
    intro i s s' e hs
    obtain ⟨x, ex, e⟩ := bind_ok e
    obtain ⟨y, ey, e⟩ := bind_ok e
    have e := Except.ok.inj e
    rw [← e, Bool.and_eq_true, beq_iff_eq] at hs
    exact ⟨hs.1, x, ex, by rw [hs.2]; exact ey⟩
  obtain ⟨hg, f, -, -, hf⟩ := forRange_sound (fun b => b)
    (fun i s s' e hs => (step i s s' e hs).1) _ _ _ _ h rfl
  refine ⟨hg, fun i hi => ?_⟩
  obtain ⟨e, hs⟩ := hf i (Nat.zero_le _) (by omega)
  exact (step i _ _ e hs).2

theorem rdv_some {out : List Nat} {i y : Nat} (ey : rdv out i = .ok y) : out[i]? = some y := by
  unfold rdv at ey
  cases ho : out[i]? with
  | none => rw [ho] at ey; cases ey
  | some z => rw [ho] at ey; rw [Except.ok.inj ey]

theorem take_of_getElem? {out xs : List Nat} (key : ∀ i, i < xs.length → out[i]? = xs[i]?) :
    out.take xs.length = xs := by
  apply List.ext_getElem?
  intro i
  by_cases hi : i < xs.length
  · rw [List.getElem?_take_of_lt hi, key i hi]
  · rw [List.getElem?_eq_none (by rw [List.length_take]; omega), List.getElem?_eq_none (by omega)]

theorem compare_lists_sound {data out xs : List Nat} {p : Nat} {g : Bool}
    (hat : (data.drop p).take xs.length = xs)
    (h : compare_lists data out p xs.length g = .ok true) : out.take xs.length = xs := by
  apply take_of_getElem?
  intro i hi
  have hxi : xs[i]? = some xs[i] := List.getElem?_eq_getElem hi
  obtain ⟨x, ex, ey⟩ := (compare_lists_steps h).2 i hi
  rw [rdv_some ey, hxi, rdv_inv hat hxi ex]

/-- acceptance, in terms of the lists -/
theorem accepted {body : (k n univ p : Nat) → Bool × σ → Res (Bool × σ)} {s : σ} {c : Nat}
    (hlen : ∀ xs ∈ lists, xs.length < 4294967295)
    (hmono : ∀ k n univ p s s', body k n univ p s = .ok s' → s'.1 = true → s.1 = true)
    (h : test_collection dbg params (collection univ lists) body s = .ok (c, true)) :
    c = (keptLists params lists).length ∧ ∀ j xs, (keptLists params lists)[j]? = some xs →
      ∃ p s s', ((collection univ lists).drop p).take xs.length = xs ∧
        body j xs.length (xs.getLast?.getD 0) p s = .ok s' ∧ s'.1 = true := by
  rw [test_collection_eq hlen] at h
  obtain ⟨h1, -, h2⟩ := overLists_sound hmono _ _ _ _ h
  refine ⟨by rw [h1, Nat.zero_add, keptAt_length], fun j xs hj => ?_⟩
  have hj' := hj
  rw [← keptAt_fst, List.getElem?_map, Option.map_eq_some_iff] at hj'
  obtain ⟨⟨xs', p⟩, hq, rfl⟩ := hj'
  obtain ⟨s, s', e, hs⟩ := h2 j xs' p hq
  rw [Nat.zero_add] at e
  exact ⟨p, s, s', (keptAt_spec hq).2, e, hs⟩

/-- C50: `test_decode` -/
theorem C50_decode (hlen : ∀ xs ∈ lists, xs.length < 4294967295) {c : Nat}
    (h : test_decode dbg m a params (collection univ lists) = .ok (c, true)) :
    ∃ idx, SIndex.mmap m a = .ok idx ∧ c = (keptLists params lists).length ∧
      ∀ j xs, (keptLists params lists)[j]? = some xs →
        ∃ s out out', idx.get dbg m j = .ok s ∧ s.cardinality m = .ok xs.length ∧
          s.decode dbg m out = .ok (xs.length, out') ∧ out'.take xs.length = xs := by
  obtain ⟨idx, hi, h⟩ := bind_ok h
  have inv : ∀ k n u p s s', check_decode dbg m idx (collection univ lists) k n u p s = .ok s' →
      ∃ q d c out, idx.get dbg m k = .ok q ∧ q.decode dbg m s.2 = .ok (d, out) ∧
        q.cardinality m = .ok c ∧
        compare_lists (collection univ lists) out p n (s.1 && (c == n) && (d == n)) = .ok s'.1 := by
    intro k n univ p s s' e
    obtain ⟨q, eq, e⟩ := bind_ok e
    obtain ⟨⟨d, out⟩, ed, e⟩ := bind_ok e
    obtain ⟨c, ec, e⟩ := bind_ok e
    obtain ⟨g, eg, e⟩ := bind_ok e
    have e := Except.ok.inj e
    exact ⟨q, d, c, out, eq, ed, ec, by rw [← e]; exact eg⟩
  obtain ⟨hc, hall⟩ := accepted hlen (fun k n u p s s' e hs => by
    obtain ⟨q, d, c, out, -, -, -, eg⟩ := inv k n u p s s' e
    rw [hs] at eg
    have := (compare_lists_steps eg).1
    rw [Bool.and_eq_true, Bool.and_eq_true] at this
    exact this.1.1) h
  refine ⟨idx, hi, hc, fun j xs hj => ?_⟩
  obtain ⟨p, s, s', hat, e, hs⟩ := hall j xs hj
  obtain ⟨q, d, c, out, eq, ed, ec, eg⟩ := inv _ _ _ _ _ _ e
  rw [hs] at eg
  have hg := (compare_lists_steps eg).1
  rw [Bool.and_eq_true, Bool.and_eq_true, beq_iff_eq, beq_iff_eq] at hg
  exact ⟨q, s.2, out, eq, by rw [ec, hg.1.2], by rw [ed, hg.2], compare_lists_sound hat eg⟩

/-- C50: `test_contains` (it asks only for elements of the lists) -/
theorem C50_contains (hlen : ∀ xs ∈ lists, xs.length < 4294967295) {c : Nat}
    (h : test_contains dbg m a params (collection univ lists) = .ok (c, true)) :
    ∃ idx, SIndex.mmap m a = .ok idx ∧ c = (keptLists params lists).length ∧
      ∀ j xs, (keptLists params lists)[j]? = some xs →
        ∃ s, idx.get dbg m j = .ok s ∧ s.cardinality m = .ok xs.length ∧
          ∀ x ∈ xs, s.contains dbg m x = .ok true := by
  obtain ⟨idx, hi, h⟩ := bind_ok h
  generalize hdata : collection univ lists = data at *
  have inv : ∀ k n univ p s s', check_contains dbg m idx data k n univ p s = .ok s' → s'.1 = true →
      ∃ q c, idx.get dbg m k = .ok q ∧ q.cardinality m = .ok c ∧ (s.1 && (c == n)) = true ∧
        ∀ i, i < n → ∃ x, rdv data (p + i) = .ok x ∧ q.contains dbg m x = .ok true := by
    intro k n univ p s s' e hs
    obtain ⟨q, eq, e⟩ := bind_ok e
    obtain ⟨c, ec, e⟩ := bind_ok e
    obtain ⟨g, eg, e⟩ := bind_ok e
    have e := Except.ok.inj e
    rw [← e] at hs
    simp only at hs
    subst hs
    have step : ∀ (i : Nat) (s s' : Bool), (do
        let value ← rdv data (p + i)
        let found ← q.contains dbg m value
        return s && found : Res Bool) = .ok s' → s' = true →
        s = true ∧ ∃ x, rdv data (p + i) = .ok x ∧ q.contains dbg m x = .ok true := by
      intro i s s' e hs
      obtain ⟨x, ex, e⟩ := bind_ok e
      obtain ⟨y, ey, e⟩ := bind_ok e
      have e := Except.ok.inj e
      rw [← e, Bool.and_eq_true] at hs
      exact ⟨hs.1, x, ex, by rw [← hs.2]; exact ey⟩
    obtain ⟨hg, f, -, -, hf⟩ := forRange_sound (fun b => b)
      (fun i s s' e hs => (step i s s' e hs).1) _ _ _ _ eg rfl
    refine ⟨q, c, eq, ec, hg, fun i hi => ?_⟩
    obtain ⟨e, hs⟩ := hf i (Nat.zero_le _) (by omega)
    exact (step i _ _ e hs).2
  subst hdata
  obtain ⟨hc, hall⟩ := accepted hlen (fun k n u p s s' e hs => by
    obtain ⟨q, c, -, -, hg, -⟩ := inv k n u p s s' e hs
    rw [Bool.and_eq_true] at hg
    exact hg.1) h
  refine ⟨idx, hi, hc, fun j xs hj => ?_⟩
  obtain ⟨p, s, s', hat, e, hs⟩ := hall j xs hj
  obtain ⟨q, c, eq, ec, hg, hel⟩ := inv _ _ _ _ _ _ e hs
  rw [Bool.and_eq_true, beq_iff_eq] at hg
  refine ⟨q, eq, by rw [ec, hg.2], fun x hx => ?_⟩
  obtain ⟨i, hi, rfl⟩ := List.mem_iff_getElem.mp hx
  obtain ⟨x, ex, et⟩ := hel i hi
  rw [← rdv_inv hat (List.getElem?_eq_getElem hi) ex]
  exact et

/-- C50: `test_select` -/
theorem C50_select (hlen : ∀ xs ∈ lists, xs.length < 4294967295) {c : Nat}
    (h : test_select dbg m a params (collection univ lists) = .ok (c, true)) :
    ∃ idx, SIndex.mmap m a = .ok idx ∧ c = (keptLists params lists).length ∧
      ∀ j xs, (keptLists params lists)[j]? = some xs →
        ∃ s, idx.get dbg m j = .ok s ∧ s.cardinality m = .ok xs.length ∧
          ∀ i x, xs[i]? = some x → ∃ v, s.select dbg m i v = .ok (true, x) := by
  obtain ⟨idx, hi, h⟩ := bind_ok h
  generalize hdata : collection univ lists = data at *
  have inv : ∀ k n univ p s s', check_select dbg m idx data k n univ p s = .ok s' → s'.1 = true →
      ∃ q c, idx.get dbg m k = .ok q ∧ q.cardinality m = .ok c ∧ (s.1 && (c == n)) = true ∧
        ∀ i, i < n → ∃ x v, rdv data (p + i) = .ok x ∧ q.select dbg m (u32 i) v = .ok (true, x) := by
    intro k n univ p s s' e hs
    obtain ⟨q, eq, e⟩ := bind_ok e
    obtain ⟨c, ec, e⟩ := bind_ok e
    obtain ⟨⟨g, v⟩, eg, e⟩ := bind_ok e
    have e := Except.ok.inj e
    rw [← e] at hs
    simp only at hs
    subst hs
    have step : ∀ (i : Nat) (s s' : Bool × Nat), (do
        let expected ← rdv data (p + i)
        let (valid, value) ← q.select dbg m (u32 i) s.2
        return (s.1 && valid && (expected == value), value) : Res (Bool × Nat)) = .ok s' →
        s'.1 = true →
        s.1 = true ∧ ∃ x v, rdv data (p + i) = .ok x ∧ q.select dbg m (u32 i) v = .ok (true, x) := by
      intro i s s' e hs
      obtain ⟨x, ex, e⟩ := bind_ok e
      obtain ⟨⟨y, z⟩, ey, e⟩ := bind_ok e
      have e := Except.ok.inj e
      rw [← e] at hs
      simp only at hs
      rw [Bool.and_eq_true, Bool.and_eq_true, beq_iff_eq] at hs
      obtain ⟨⟨h1, rfl⟩, rfl⟩ := hs
      exact ⟨h1, x, s.2, ex, ey⟩
    obtain ⟨hg, f, -, -, hf⟩ := forRange_sound (fun (b : Bool × Nat) => b.1)
      (fun i s s' e hs => (step i s s' e hs).1) _ _ _ _ eg rfl
    refine ⟨q, c, eq, ec, hg, fun i hi => ?_⟩
    obtain ⟨e, hs⟩ := hf i (Nat.zero_le _) (by omega)
    exact (step i _ _ e hs).2
  subst hdata
  obtain ⟨hc, hall⟩ := accepted hlen (fun k n u p s s' e hs => by
    obtain ⟨q, c, -, -, hg, -⟩ := inv k n u p s s' e hs
    rw [Bool.and_eq_true] at hg
    exact hg.1) h
  refine ⟨idx, hi, hc, fun j xs hj => ?_⟩
  obtain ⟨p, s, s', hat, e, hs⟩ := hall j xs hj
  obtain ⟨q, c, eq, ec, hg, hel⟩ := inv _ _ _ _ _ _ e hs
  rw [Bool.and_eq_true, beq_iff_eq] at hg
  refine ⟨q, eq, by rw [ec, hg.2], fun i x hx => ?_⟩
  have hil : i < xs.length := (List.getElem?_eq_some_iff.mp hx).1
  have hxl : xs.length < 4294967295 := by
    have : xs ∈ lists := by
      have := List.mem_of_getElem? hj
      unfold keptLists at this
      exact (List.mem_filter.mp this).1
    exact hlen xs this
  obtain ⟨y, v, ex, et⟩ := hel i hil
  rw [u32_lt (by omega)] at et
  rw [← rdv_inv hat hx ex]
  exact ⟨v, et⟩

/-- C50: `test_enumerator`: `f i` is the enumerator after `i` calls of `next` -/
theorem C50_enumerator (hlen : ∀ xs ∈ lists, xs.length < 4294967295) {c : Nat}
    (h : test_enumerator dbg m a params (collection univ lists) = .ok (c, true)) :
    ∃ idx, SIndex.mmap m a = .ok idx ∧ c = (keptLists params lists).length ∧
      ∀ j xs, (keptLists params lists)[j]? = some xs →
        ∃ s buf pte, ∃ f : Nat → Enum, idx.get dbg m j = .ok s ∧
          Enum.init dbg m buf s pte = .ok (f 0) ∧
          ∀ i x, xs[i]? = some x → (f i).value = .ok x ∧ (f i).next dbg m = .ok (f (i + 1)) := by
  obtain ⟨idx, hi, h⟩ := bind_ok h
  generalize hdata : collection univ lists = data at *
  have inv : ∀ k n univ p s s', check_enumerator dbg m idx data k n univ p s = .ok s' →
      s'.1 = true → ∃ q, ∃ f : Nat → Enum, idx.get dbg m k = .ok q ∧
        Enum.init dbg m s.2 q (u32 idx.univ) = .ok (f 0) ∧ s.1 = true ∧
        ∀ i, i < n → ∃ x, rdv data (p + i) = .ok x ∧ (f i).value = .ok x ∧
          (f i).next dbg m = .ok (f (i + 1)) := by
    intro k n univ p s s' e hs
    obtain ⟨q, eq, e⟩ := bind_ok e
    obtain ⟨e0, ei, e⟩ := bind_ok e
    obtain ⟨⟨g, v⟩, eg, e⟩ := bind_ok e
    have e := Except.ok.inj e
    rw [← e] at hs
    simp only at hs
    subst hs
    have step : ∀ (i : Nat) (s s' : Bool × Enum), (do
        let expected ← rdv data (p + i)
        let got ← s.2.value
        let e ← s.2.next dbg m
        return (s.1 && (expected == got), e) : Res (Bool × Enum)) = .ok s' →
        s'.1 = true →
        s.1 = true ∧ ∃ x, rdv data (p + i) = .ok x ∧ s.2.value = .ok x ∧
          s.2.next dbg m = .ok s'.2 := by
      intro i s s' e hs
      obtain ⟨x, ex, e⟩ := bind_ok e
      obtain ⟨y, ey, e⟩ := bind_ok e
      obtain ⟨z, ez, e⟩ := bind_ok e
      have e := Except.ok.inj e
      rw [← e] at hs ⊢
      simp only at hs
      rw [Bool.and_eq_true, beq_iff_eq] at hs
      obtain ⟨h1, rfl⟩ := hs
      exact ⟨h1, x, ex, ey, ez⟩
    obtain ⟨hg, f, f0, -, hf⟩ := forRange_sound (fun (b : Bool × Enum) => b.1)
      (fun i s s' e hs => (step i s s' e hs).1) _ _ _ _ eg rfl
    refine ⟨q, fun i => (f i).2, eq, by simp only; rw [f0]; exact ei, hg, fun i hi => ?_⟩
    obtain ⟨e, hs⟩ := hf i (Nat.zero_le _) (by omega)
    exact (step i _ _ e hs).2
  subst hdata
  obtain ⟨hc, hall⟩ := accepted hlen (fun k n u p s s' e hs => by
    obtain ⟨q, f, -, -, hg, -⟩ := inv k n u p s s' e hs
    exact hg) h
  refine ⟨idx, hi, hc, fun j xs hj => ?_⟩
  obtain ⟨p, s, s', hat, e, hs⟩ := hall j xs hj
  obtain ⟨q, f, eq, ei, -, hel⟩ := inv _ _ _ _ _ _ e hs
  refine ⟨q, _, _, f, eq, ei, fun i x hx => ?_⟩
  have hil : i < xs.length := (List.getElem?_eq_some_iff.mp hx).1
  obtain ⟨y, ex, ev, en⟩ := hel i hil
  rw [rdv_inv hat hx ex] at ev
  exact ⟨ev, en⟩

/-- the loop with jumps -/
theorem jump_loop_sound {body : Nat → σ → Res σ} (good : σ → Bool)
    (hmono : ∀ i s s', body i s = .ok s' → good s' = true → good s = true) {last : Nat} (fuel : Nat) :
    ∀ (v : Nat) (s s' : σ), jump_loop body last fuel v s = .ok s' → good s' = true →
      good s = true := by
  induction fuel with
  | zero => intro v s s' h; cases h
  | succ f ih =>
    intro v s s' h hg
    unfold jump_loop at h
    by_cases hv : v = last
    · rw [if_pos hv] at h
      rw [Except.ok.inj h]
      exact hg
    · rw [if_neg hv] at h
      obtain ⟨s1, e1, h⟩ := bind_ok h
      exact hmono _ _ _ e1 (ih _ _ _ h hg)

/-- the first of the two loops: `f v` is the state before `v` is asked for -/
theorem check_next_geq_sound {next_geq : σ → Nat → Res (σ × Nat)} {data : List Nat}
    {fuel n u p : Nat} {s s' : Bool × σ}
    (h : check_next_geq dbg next_geq data fuel n u p s = .ok s') (hg : s'.1 = true) :
    s.1 = true ∧ ∃ f : Nat → σ, f 0 = s.2 ∧ ∀ v, v < u32 (u + 1) → ∃ x,
      lower_bound data p n v = .ok x ∧ next_geq (f v) (u32 v) = .ok (f (v + 1), x) := by
  unfold check_next_geq at h
  obtain ⟨s1, e1, h⟩ := bind_ok h
  have h1 := jump_loop_sound (fun (s : Bool × σ) => s.1) (by
    intro i s s' e hs
    obtain ⟨⟨e0, x⟩, -, e⟩ := bind_ok e
    have e := Except.ok.inj e
    rw [← e] at hs
    simp only at hs
    rw [Bool.and_eq_true] at hs
    exact hs.1) _ _ _ _ h hg
  have step : ∀ (v : Nat) (s s' : Bool × σ), (do
      let expected ← lower_bound data p n v
      let (e, x) ← next_geq s.2 (u32 v)
      cassert dbg (x ≥ v)
      return (s.1 && (x == expected), e) : Res (Bool × σ)) = .ok s' → s'.1 = true →
      s.1 = true ∧ ∃ x, lower_bound data p n v = .ok x ∧ next_geq s.2 (u32 v) = .ok (s'.2, x) := by
    intro v s s' e hs
    obtain ⟨x, ex, e⟩ := bind_ok e
    obtain ⟨⟨t, y⟩, ey, e⟩ := bind_ok e
    obtain ⟨-, -, e⟩ := bind_ok e
    have e := Except.ok.inj e
    rw [← e] at hs ⊢
    simp only at hs
    rw [Bool.and_eq_true, beq_iff_eq] at hs
    obtain ⟨h1, rfl⟩ := hs
    exact ⟨h1, y, ex, ey⟩
  obtain ⟨hg, f, f0, -, hf⟩ := forRange_sound (fun (b : Bool × σ) => b.1)
    (fun i s s' e hs => (step i s s' e hs).1) _ _ _ _ e1 h1
  refine ⟨hg, fun i => (f i).2, by simp only; rw [f0], fun v hv => ?_⟩
  obtain ⟨e, hs⟩ := hf v (Nat.zero_le _) (by omega)
  exact (step v _ _ e hs).2

/-- the last element and the bound of the loop -/
theorem last_bound {xs : List Nat} (hv : Valid xs) {v x : Nat} (hx : x ∈ xs) (h : v ≤ x) :
    v < u32 (xs.getLast?.getD 0 + 1) ∧ u32 v = v := by
  obtain ⟨u, h1, h2, h3⟩ := last_facts hv
  have h4 := hv.2.2 u h2
  have h5 := h3 x hx
  have e1 : u32 (u + 1) = u + 1 := u32_lt (by omega)
  have e2 : u32 v = v := u32_lt (by omega)
  rw [h1, e1]
  exact ⟨by omega, e2⟩

/-- what `std::lower_bound` found -/
theorem lower_bound_inv {data xs : List Nat} {p v u x : Nat} (hat : (data.drop p).take xs.length = xs)
    (hu : u ∈ xs) (hv : v ≤ u) (h : lower_bound data p xs.length v = .ok x) :
    xs.find? (fun x => decide (v ≤ x)) = some x := by
  rw [(lower_bound_spec hat hu hv).1] at h
  have h := Except.ok.inj h
  unfold answer at h
  cases e : xs.find? (fun x => decide (v ≤ x)) with
  | none =>
    have := List.find?_eq_none.mp e u hu
    simp only [decide_eq_true_eq] at this
    omega
  | some y => rw [e] at h; rw [← h]; rfl

/-- C50: `test_next_geq`: right answers for all values up to the last element, each the first
element that is not below the value -/
theorem C50_next_geq (hg : GoodCollection params univ lists) {c fuel : Nat}
    (h : test_next_geq dbg m a params (collection univ lists) fuel = .ok (c, true)) :
    ∃ idx, SIndex.mmap m a = .ok idx ∧ c = (keptLists params lists).length ∧
      ∀ j xs, (keptLists params lists)[j]? = some xs →
        ∃ s, idx.get dbg m j = .ok s ∧ s.cardinality m = .ok xs.length ∧
          ∀ v u, u ∈ xs → v ≤ u → ∃ x, s.next_geq dbg m v = .ok x ∧
            xs.find? (fun x => decide (v ≤ x)) = some x := by
  obtain ⟨idx, hi, h⟩ := bind_ok h
  generalize hdata : collection univ lists = data at *
  have inv : ∀ k n u p s s', check_sequence_next_geq dbg m idx data fuel k n u p s = .ok s' →
      s'.1 = true → ∃ q c, idx.get dbg m k = .ok q ∧ q.cardinality m = .ok c ∧
        (s.1 && (c == n)) = true ∧ ∀ v, v < u32 (u + 1) → ∃ x, lower_bound data p n v = .ok x ∧
          q.next_geq dbg m (u32 v) = .ok x := by
    intro k n u p s s' e hs
    obtain ⟨q, eq, e⟩ := bind_ok e
    obtain ⟨c, ec, e⟩ := bind_ok e
    obtain ⟨h1, f, -, hf⟩ := check_next_geq_sound e hs
    refine ⟨q, c, eq, ec, h1, fun v hv => ?_⟩
    obtain ⟨x, e1, e2⟩ := hf v hv
    obtain ⟨y, e2, e3⟩ := bind_ok e2
    have e3 := Except.ok.inj e3
    exact ⟨x, e1, by rw [e2, (Prod.mk.inj e3).2]⟩
  subst hdata
  obtain ⟨hc, hall⟩ := accepted hg.2.1 (fun k n u p s s' e hs => by
    obtain ⟨q, c, -, -, hg, -⟩ := inv k n u p s s' e hs
    rw [Bool.and_eq_true] at hg
    exact hg.1) h
  refine ⟨idx, hi, hc, fun j xs hj => ?_⟩
  have hv := keptLists_valid hg xs (List.mem_of_getElem? hj)
  obtain ⟨p, s, s', hat, e, hs⟩ := hall j xs hj
  obtain ⟨q, c, eq, ec, hgood, hel⟩ := inv _ _ _ _ _ _ e hs
  rw [Bool.and_eq_true, beq_iff_eq] at hgood
  refine ⟨q, eq, by rw [ec, hgood.2], fun v u hu hvu => ?_⟩
  obtain ⟨hb, hv32⟩ := last_bound hv hu hvu
  obtain ⟨x, e1, e2⟩ := hel v hb
  rw [hv32] at e2
  exact ⟨x, e2, lower_bound_inv hat hu hvu e1⟩

/-- C50: `test_next_geq_enumerator`: `f v` is the enumerator when it is asked for `v`; it is asked
for 0, 1, 2, … up to the last element, in that order and nothing else before. -/
theorem C50_next_geq_enumerator (hg : GoodCollection params univ lists) {c fuel : Nat}
    (h : test_next_geq_enumerator dbg m a params (collection univ lists) fuel = .ok (c, true)) :
    ∃ idx, SIndex.mmap m a = .ok idx ∧ c = (keptLists params lists).length ∧
      ∀ j xs, (keptLists params lists)[j]? = some xs →
        ∃ s, ∃ f : Nat → GeqEnum, idx.get dbg m j = .ok s ∧ GeqEnum.new m s = .ok (f 0) ∧
          ∀ v u, u ∈ xs → v ≤ u → ∃ x, (f v).next_geq dbg m v = .ok (f (v + 1), x) ∧
            xs.find? (fun x => decide (v ≤ x)) = some x := by
  obtain ⟨idx, hi, h⟩ := bind_ok h
  generalize hdata : collection univ lists = data at *
  have inv : ∀ k n u p s s', check_enumerator_next_geq dbg m idx data fuel k n u p s = .ok s' →
      s'.1 = true → ∃ q c, ∃ f : Nat → GeqEnum, idx.get dbg m k = .ok q ∧
        GeqEnum.new m q = .ok (f 0) ∧ (s.1 && (c == n)) = true ∧
        ∀ v, v < u32 (u + 1) → ∃ x, lower_bound data p n v = .ok x ∧
          (f v).next_geq dbg m (u32 v) = .ok (f (v + 1), x) := by
    intro k n u p s s' e hs
    obtain ⟨q, eq, e⟩ := bind_ok e
    obtain ⟨c, ec, e⟩ := bind_ok e
    obtain ⟨e0, en, e⟩ := bind_ok e
    obtain ⟨⟨g, e1⟩, eg, e⟩ := bind_ok e
    have e := Except.ok.inj e
    rw [← e] at hs
    obtain ⟨h1, f, f0, hf⟩ := check_next_geq_sound eg hs
    exact ⟨q, c, f, eq, by rw [f0]; exact en, h1, hf⟩
  subst hdata
  obtain ⟨hc, hall⟩ := accepted hg.2.1 (fun k n u p s s' e hs => by
    obtain ⟨q, c, f, -, -, hg, -⟩ := inv k n u p s s' e hs
    rw [Bool.and_eq_true] at hg
    exact hg.1) h
  refine ⟨idx, hi, hc, fun j xs hj => ?_⟩
  have hv := keptLists_valid hg xs (List.mem_of_getElem? hj)
  obtain ⟨p, s, s', hat, e, hs⟩ := hall j xs hj
  obtain ⟨q, c, f, eq, en, -, hel⟩ := inv _ _ _ _ _ _ e hs
  refine ⟨q, f, eq, en, fun v u hu hvu => ?_⟩
  obtain ⟨hb, hv32⟩ := last_bound hv hu hvu
  obtain ⟨x, e1, e2⟩ := hel v hb
  rw [hv32] at e2
  exact ⟨x, e2, lower_bound_inv hat hu hvu e1⟩

/-- C50: `test_uncompress` -/
theorem C50_uncompress (hlen : ∀ xs ∈ lists, xs.length < 4294967295) {c : Nat}
    (h : test_uncompress dbg m a params (collection univ lists) = .ok (c, true)) :
    ∃ idx, SIndex.mmap m a = .ok idx ∧ c = (keptLists params lists).length ∧
      ∀ j xs, (keptLists params lists)[j]? = some xs →
        ∃ s bm bm' bm'' out out', idx.get dbg m j = .ok s ∧
          s.uncompress dbg m bm = .ok (xs.length, bm') ∧
          decode_bitmap_and_reset bm' (bitmap_words idx.univ) out = .ok (xs.length, bm'', out') ∧
          out'.take xs.length = xs := by
  obtain ⟨idx, hi, h⟩ := bind_ok h
  generalize hdata : collection univ lists = data at *
  have inv : ∀ k n u p s s', check_uncompress dbg m idx data k n u p s = .ok s' →
      ∃ q d d' bm' bm'' out, idx.get dbg m k = .ok q ∧ q.uncompress dbg m s.2.1 = .ok (d, bm') ∧
        decode_bitmap_and_reset bm' (bitmap_words idx.univ) s.2.2 = .ok (d', bm'', out) ∧
        compare_lists data out p n (s.1 && (d == d') && (d == n)) = .ok s'.1 := by
    intro k n u p s s' e
    obtain ⟨q, eq, e⟩ := bind_ok e
    obtain ⟨⟨d, bm'⟩, ed, e⟩ := bind_ok e
    obtain ⟨⟨d', bm'', out⟩, ed', e⟩ := bind_ok e
    obtain ⟨g, eg, e⟩ := bind_ok e
    have e := Except.ok.inj e
    exact ⟨q, d, d', bm', bm'', out, eq, ed, ed', by rw [← e]; exact eg⟩
  subst hdata
  obtain ⟨hc, hall⟩ := accepted hlen (fun k n u p s s' e hs => by
    obtain ⟨q, d, d', bm', bm'', out, -, -, -, eg⟩ := inv k n u p s s' e
    rw [hs] at eg
    have := (compare_lists_steps eg).1
    rw [Bool.and_eq_true, Bool.and_eq_true] at this
    exact this.1.1) h
  refine ⟨idx, hi, hc, fun j xs hj => ?_⟩
  obtain ⟨p, s, s', hat, e, hs⟩ := hall j xs hj
  obtain ⟨q, d, d', bm', bm'', out, eq, ed, ed', eg⟩ := inv _ _ _ _ _ _ e
  rw [hs] at eg
  have hg := (compare_lists_steps eg).1
  rw [Bool.and_eq_true, Bool.and_eq_true, beq_iff_eq, beq_iff_eq] at hg
  obtain ⟨⟨-, rfl⟩, rfl⟩ := hg
  exact ⟨q, _, bm', bm'', _, out, eq, ed, ed', compare_lists_sound hat eg⟩

/-! ## Queries -/

theorem compare_results_sound {E O : List Nat} {n : Nat} {g : Bool}
    (h : compare_results E O n g = .ok true) :
    g = true ∧ ∀ i, i < n → ∃ x, E[i]? = some x ∧ O[i]? = some x := by
  unfold compare_results at h
  have step : ∀ (i : Nat) (s s' : Bool), (do
      let x ← rdv E i
      let y ← rdv O i
      return s && (x == y) : Res Bool) = .ok s' → s' = true →
      s = true ∧ ∃ x, rdv E i = .ok x ∧ rdv O i = .ok x := by
    intro i s s' e hs
    obtain ⟨x, ex, e⟩ := bind_ok e
    obtain ⟨y, ey, e⟩ := bind_ok e
    have e := Except.ok.inj e
    rw [← e, Bool.and_eq_true, beq_iff_eq] at hs
    exact ⟨hs.1, x, ex, by rw [hs.2]; exact ey⟩
  obtain ⟨hg, f, -, -, hf⟩ := forRange_sound (fun b => b)
    (fun i s s' e hs => (step i s s' e hs).1) _ _ _ _ h rfl
  refine ⟨hg, fun i hi => ?_⟩
  obtain ⟨e, hs⟩ := hf i (Nat.zero_le _) (by omega)
  obtain ⟨-, x, h1, h2⟩ := step i _ _ e hs
  exact ⟨x, rdv_some h1, rdv_some h2⟩

theorem forEach_sound {α : Type} {body : α → σ → Res σ} (good : σ → Bool)
    (hmono : ∀ i s s', body i s = .ok s' → good s' = true → good s = true) (l : List α) :
    ∀ (s s' : σ), forEach body l s = .ok s' → good s' = true →
    good s = true ∧ ∀ x ∈ l, ∃ s s', body x s = .ok s' ∧ good s' = true := by
  induction l with
  | nil =>
    intro s s' h hg
    simp only [forEach, Except.ok.injEq] at h
    subst h
    exact ⟨hg, by simp⟩
  | cons x l ih =>
    intro s s' h hg
    rw [forEach] at h
    obtain ⟨s1, e1, h⟩ := bind_ok h
    obtain ⟨g1, hl⟩ := ih s1 s' h hg
    refine ⟨hmono x s s1 e1 g1, fun y hy => ?_⟩
    rcases List.mem_cons.mp hy with rfl | hy
    · exact ⟨s, s1, e1, g1⟩
    · exact hl y hy

theorem wrs_inv {vs out out' : List Nat} {p : Nat} (h : wrs out p vs = .ok out') :
    ∀ i, i < vs.length → out'[p + i]? = vs[i]? := by
  have hroom : p + vs.length ≤ out.length ∨ vs = [] := by
    by_cases h0 : vs = []
    · exact Or.inr h0
    · refine Or.inl (Nat.le_of_not_lt (fun hlt => ?_))
      rw [wrs_err' h0 hlt] at h
      cases h
  rcases hroom with hr | rfl
  · obtain ⟨o, e, w⟩ := wrs_of hr
    rw [h] at e
    rw [Except.ok.inj e]
    exact w.2.2.1
  · intro i hi; simp at hi

/-- one accepted query -/
theorem check_pair_sound {τ : Type} {idx : SIndex} {merge : List Nat → List Nat → List Nat}
    {op : SSeq → SSeq → τ → List Nat → Res (Nat × τ × List Nat)} {q : Nat × Nat}
    {s s' : Bool × Bufs × τ} (h : check_pair dbg m idx merge op q s = .ok s') (hg : s'.1 = true) :
    s.1 = true ∧ ∃ l r ib jb is js ni nj t out t' out',
      idx.get dbg m q.1 = .ok l ∧ idx.get dbg m q.2 = .ok r ∧
      l.decode dbg m ib = .ok (ni, is) ∧ r.decode dbg m jb = .ok (nj, js) ∧
      op l r t out = .ok ((merge (is.take ni) (js.take nj)).length, t', out') ∧
      out'.take (merge (is.take ni) (js.take nj)).length = merge (is.take ni) (js.take nj) := by
  unfold check_pair at h
  obtain ⟨l, hl, h⟩ := bind_ok h
  obtain ⟨⟨ni, is⟩, hi, h⟩ := bind_ok h
  obtain ⟨r, hr, h⟩ := bind_ok h
  obtain ⟨⟨nj, js⟩, hj, h⟩ := bind_ok h
  simp only at h
  obtain ⟨E, hE, h⟩ := bind_ok h
  obtain ⟨⟨n, t', o'⟩, ho, h⟩ := bind_ok h
  obtain ⟨g, hc, h⟩ := bind_ok h
  have h := Except.ok.inj h
  rw [← h] at hg
  simp only at hg hc
  subst hg
  obtain ⟨h1, h2⟩ := compare_results_sound hc
  rw [Bool.and_eq_true, beq_iff_eq] at h1
  obtain ⟨h1, rfl⟩ := h1
  refine ⟨h1, l, r, _, _, is, js, ni, nj, _, _, t', o', hl, hr, hi, hj, ho, ?_⟩
  apply take_of_getElem?
  intro i hi
  obtain ⟨x, hx, hy⟩ := h2 i hi
  have := wrs_inv hE i hi
  rw [Nat.zero_add] at this
  rw [hy, ← this, hx]

/-- C50: `test_intersect`: for every query the result is what `std::set_intersection` makes of the
two decoded lists -/
theorem C50_intersect {sort : (SSeq → Nat) → List SSeq → List SSeq} {n c : Nat}
    {qs : List (Nat × Nat)} (hn : n < 4294967296) {x : IScratch}
    (h : test_intersect dbg sort m a n (pairTokens qs) x = .ok (c, true)) :
    ∃ idx, SIndex.mmap m a = .ok idx ∧ c = (qs.take n).length ∧ ∀ q ∈ qs.take n,
      ∃ l r ib jb is js ni nj t out Z ss t' out',
        idx.get dbg m q.1 = .ok l ∧ idx.get dbg m q.2 = .ok r ∧
        l.decode dbg m ib = .ok (ni, is) ∧ r.decode dbg m jb = .ok (nj, js) ∧
        Z = merge_common (is.take ni) (js.take nj) ∧
        intersection dbg sort m [l, r] t out = .ok (Z.length, ss, t', out') ∧
        out'.take Z.length = Z := by
  unfold test_intersect at h
  rw [limit_pairs hn] at h
  simp only [ok_bind] at h
  obtain ⟨idx, hi, h⟩ := bind_ok h
  obtain ⟨⟨g, b, t⟩, he, h⟩ := bind_ok h
  have h := Except.ok.inj h
  obtain ⟨rfl, rfl⟩ := Prod.mk.inj h
  obtain ⟨-, hall⟩ := forEach_sound (fun (s : Bool × Bufs × IScratch) => s.1)
    (fun q s s' e hs => (check_pair_sound e hs).1) _ _ _ he rfl
  refine ⟨idx, hi, rfl, fun q hq => ?_⟩
  obtain ⟨s, s', e, hs⟩ := hall q hq
  obtain ⟨-, l, r, ib, jb, is, js, ni, nj, t, out, t', out', h1, h2, h3, h4, h5, h6⟩ :=
    check_pair_sound e hs
  obtain ⟨⟨k, ss, t1, o1⟩, e1, h5⟩ := bind_ok h5
  have h5 := Except.ok.inj h5
  simp only [Prod.mk.injEq] at h5
  obtain ⟨rfl, rfl, rfl⟩ := h5
  exact ⟨l, r, ib, jb, is, js, ni, nj, t, out, _, ss, t1, o1, h1, h2, h3, h4, rfl, e1, h6⟩

/-- C50: `test_union` likewise -/
theorem C50_union {n c : Nat} {qs : List (Nat × Nat)} (hn : n < 4294967296) {x : UScratch}
    (h : test_union dbg m a n (pairTokens qs) x = .ok (c, true)) :
    ∃ idx, SIndex.mmap m a = .ok idx ∧ c = (qs.take n).length ∧ ∀ q ∈ qs.take n,
      ∃ l r ib jb is js ni nj t out Z t' out',
        idx.get dbg m q.1 = .ok l ∧ idx.get dbg m q.2 = .ok r ∧
        l.decode dbg m ib = .ok (ni, is) ∧ r.decode dbg m jb = .ok (nj, js) ∧
        Z = merge_all (is.take ni) (js.take nj) ∧
        pairwise_union dbg m l r t out 0 = .ok (Z.length, t', out') ∧
        out'.take Z.length = Z := by
  unfold test_union at h
  rw [limit_pairs hn] at h
  simp only [ok_bind] at h
  obtain ⟨idx, hi, h⟩ := bind_ok h
  obtain ⟨⟨g, b, t⟩, he, h⟩ := bind_ok h
  have h := Except.ok.inj h
  obtain ⟨rfl, rfl⟩ := Prod.mk.inj h
  obtain ⟨-, hall⟩ := forEach_sound (fun (s : Bool × Bufs × UScratch) => s.1)
    (fun q s s' e hs => (check_pair_sound e hs).1) _ _ _ he rfl
  refine ⟨idx, hi, rfl, fun q hq => ?_⟩
  obtain ⟨s, s', e, hs⟩ := hall q hq
  obtain ⟨-, l, r, ib, jb, is, js, ni, nj, t, out, t', out', h1, h2, h3, h4, h5, h6⟩ :=
    check_pair_sound e hs
  exact ⟨l, r, ib, jb, is, js, ni, nj, t, out, _, t', out', h1, h2, h3, h4, rfl, h5, h6⟩

theorem read_queries_inv {sort : List Nat → List Nat} : ∀ {lines : List (List (Option Nat))}
    {qs : List (List Nat)}, read_queries dbg sort lines = .ok qs → qs = lines.map (read_query sort)
  | [], qs, h => by rw [← Except.ok.inj h]; rfl
  | line :: lines, qs, h => by
    rw [read_queries] at h
    obtain ⟨-, -, h⟩ := bind_ok h
    obtain ⟨qs', e, h⟩ := bind_ok h
    rw [← Except.ok.inj h, read_queries_inv e]
    rfl

/-- one query of many sequences -/
theorem check_many_sound {τ : Type} {idx : SIndex} {fold : List (List Nat) → List Nat}
    {op : List SSeq → τ → List Nat → Res (Nat × τ × List Nat)} {q : List Nat}
    {s s' : (Nat × Bool) × List Nat × τ} (h : check_many dbg m idx fold op q s = .ok s')
    (hg : s'.1.2 = true) :
    s.1.2 = true ∧ (2 ≤ q.length → ∃ ls ss t out t' out',
      q.mapM (list_sequence dbg m idx) = .ok ls ∧ q.mapM (idx.get dbg m) = .ok ss ∧
      op ss t out = .ok ((fold ls).length, t', out') ∧ out'.take (fold ls).length = fold ls) := by
  unfold check_many at h
  by_cases h2 : q.length < 2
  · rw [if_pos h2] at h
    rw [Except.ok.inj h]
    exact ⟨hg, fun h => by omega⟩
  · rw [if_neg h2] at h
    obtain ⟨ls, el, h⟩ := bind_ok h
    simp only at h
    obtain ⟨ss, es, h⟩ := bind_ok h
    obtain ⟨⟨n, t', o'⟩, ho, h⟩ := bind_ok h
    obtain ⟨g, hc, h⟩ := bind_ok h
    have h := Except.ok.inj h
    rw [← h] at hg
    simp only at hg hc
    subst hg
    obtain ⟨h1, h3⟩ := compare_results_sound hc
    rw [Bool.and_eq_true, beq_iff_eq] at h1
    obtain ⟨h1, rfl⟩ := h1
    refine ⟨h1, fun _ => ⟨ls, ss, _, _, t', o', el, es, ho, ?_⟩⟩
    apply take_of_getElem?
    intro i hi
    obtain ⟨x, hx, hy⟩ := h3 i hi
    rw [hx, hy]

/-- C50: `test_intersect_many`: for every query of two or more sequences, the result is the one
obtained from the lists that the enumerators produce -/
theorem C50_intersect_many {sort : (SSeq → Nat) → List SSeq → List SSeq} {nsort : List Nat → List Nat}
    {n c : Nat} {lines : List (List (Option Nat))} {x : IScratch}
    (h : test_intersect_many dbg sort nsort m a n lines x = .ok (c, true)) :
    ∃ idx, SIndex.mmap m a = .ok idx ∧ ∀ line ∈ lines.take n, 2 ≤ (read_query nsort line).length →
      ∃ ls ss t out ss' t' out',
        (read_query nsort line).mapM (list_sequence dbg m idx) = .ok ls ∧
        (read_query nsort line).mapM (idx.get dbg m) = .ok ss ∧
        intersection dbg sort m ss t out = .ok ((fold_common ls).length, ss', t', out') ∧
        out'.take (fold_common ls).length = fold_common ls := by
  unfold test_intersect_many at h
  obtain ⟨qs, eq, h⟩ := bind_ok h
  obtain ⟨idx, hi, h⟩ := bind_ok h
  obtain ⟨⟨g, b, t⟩, he, h⟩ := bind_ok h
  have h := Except.ok.inj h
  subst h
  obtain ⟨-, hall⟩ := forEach_sound (fun (s : (Nat × Bool) × List Nat × IScratch) => s.1.2)
    (fun q s s' e hs => (check_many_sound e hs).1) _ _ _ he rfl
  refine ⟨idx, hi, fun line hl h2 => ?_⟩
  rw [read_queries_inv eq] at hall
  obtain ⟨s, s', e, hs⟩ := hall _ (List.mem_map.mpr ⟨line, hl, rfl⟩)
  obtain ⟨ls, ss, t, out, t', out', h3, h4, h5, h6⟩ := (check_many_sound e hs).2 h2
  obtain ⟨⟨k, ss', t1, o1⟩, e1, h5⟩ := bind_ok h5
  have h5 := Except.ok.inj h5
  simp only [Prod.mk.injEq] at h5
  obtain ⟨rfl, rfl, rfl⟩ := h5
  exact ⟨ls, ss, t, out, ss', t1, o1, h3, h4, e1, h6⟩

/-- C50: `test_union_many` likewise -/
theorem C50_union_many {nsort : List Nat → List Nat} {n c : Nat} {lines : List (List (Option Nat))}
    {x : MScratch} (h : test_union_many dbg nsort m a n lines x = .ok (c, true)) :
    ∃ idx, SIndex.mmap m a = .ok idx ∧ ∀ line ∈ lines.take n, 2 ≤ (read_query nsort line).length →
      ∃ ls ss t out t' out',
        (read_query nsort line).mapM (list_sequence dbg m idx) = .ok ls ∧
        (read_query nsort line).mapM (idx.get dbg m) = .ok ss ∧
        union_many dbg m ss t out = .ok ((ls.foldl merge_all []).length, t', out') ∧
        out'.take (ls.foldl merge_all []).length = ls.foldl merge_all [] := by
  unfold test_union_many at h
  obtain ⟨qs, eq, h⟩ := bind_ok h
  obtain ⟨idx, hi, h⟩ := bind_ok h
  obtain ⟨⟨g, b, t⟩, he, h⟩ := bind_ok h
  have h := Except.ok.inj h
  subst h
  obtain ⟨-, hall⟩ := forEach_sound (fun (s : (Nat × Bool) × List Nat × MScratch) => s.1.2)
    (fun q s s' e hs => (check_many_sound e hs).1) _ _ _ he rfl
  refine ⟨idx, hi, fun line hl h2 => ?_⟩
  rw [read_queries_inv eq] at hall
  obtain ⟨s, s', e, hs⟩ := hall _ (List.mem_map.mpr ⟨line, hl, rfl⟩)
  exact (check_many_sound e hs).2 h2

/-! ## A file all programs accept -/

/-- the lists that are queried below -/
theorem queryLists : keptLists { size := 0 } sampleColl
    = [[3, 5, 300, 70000], [7], [3, 5, 300, 70000]] := by decide

theorem queryFile (dbg : Bool) : ∃ m, FileAt dbg { size := 0 } 80000 sampleColl m 4096 := by
  have hg : GoodCollection { size := 0 } 80000 sampleColl := by
    refine ⟨by decide, sampleColl_good.2.1, ?_⟩
    intro xs hx hk
    simp only [sampleColl, List.mem_cons, List.not_mem_nil, or_false] at hx
    rcases hx with rfl | rfl | rfl | rfl
    · exact small_valid
    · exact absurd rfl hk.1
    · exact valid_of_lt (by decide) (by decide) (by decide)
    · exact small_valid
  exact fileAt_small (dbg := dbg) hg (by decide) (by decide) 4096

theorem queryLists_small : ∀ xs ∈ keptLists { size := 0 } sampleColl,
    xs.length ≤ 4 ∧ ∀ x ∈ xs, x < 80000 := by
  rw [queryLists]; decide

example : ∃ m, FileAt true { size := 0 } 80000 sampleColl m 4096 ∧
    test_contains dbg m 4096 { size := 0 } (collection 80000 sampleColl) = .ok (3, true) ∧
    test_decode dbg m 4096 { size := 0 } (collection 80000 sampleColl) = .ok (3, true) ∧
    test_select dbg m 4096 { size := 0 } (collection 80000 sampleColl) = .ok (3, true) ∧
    test_enumerator dbg m 4096 { size := 0 } (collection 80000 sampleColl) = .ok (3, true) ∧
    test_uncompress dbg m 4096 { size := 0 } (collection 80000 sampleColl) = .ok (3, true) ∧
    test_next_geq dbg m 4096 { size := 0 } (collection 80000 sampleColl) 101 = .ok (3, true) ∧
    test_next_geq_enumerator dbg m 4096 { size := 0 } (collection 80000 sampleColl) 101
      = .ok (3, true) := by
  obtain ⟨m, h⟩ := queryFile true
  have hn : (keptLists { size := 0 } sampleColl).length = 3 := by rw [queryLists]; rfl
  have hs := queryLists_small
  have hb : bitmap_words 80000 = 2048 := by
    unfold bitmap_words
    rw [num_chunks_eq (by omega)]
    simp only [chunk_size, u32]
  refine ⟨m, h, ?_⟩
  rw [C49_contains h, (C49_decode h).1 (fun xs hx => hasRoom_spare (by have := (hs xs hx).1; omega)),
    C49_select h, C49_enumerator h,
    (C49_uncompress h (fun xs hx => by have := (hs xs hx).1; omega)).1 (fun xs hx x hx' => by
      have := (hs xs hx).2 x hx'
      rw [hb]
      omega),
    C49_next_geq h (fun xs hx x hx' => by have := (hs xs hx).2 x hx'; omega) (by omega),
    C49_next_geq_enumerator h (fun xs hx x hx' => by have := (hs xs hx).2 x hx'; omega) (by omega), hn]
  exact ⟨rfl, rfl, rfl, rfl, rfl, rfl, rfl⟩

/-- the second query of many names one sequence twice and is skipped -/
example : ∃ m, FileAt true { size := 0 } 80000 sampleColl m 4096 ∧
    test_intersect dbg stdSort m 4096 2 (pairTokens [(0, 1), (2, 0)]) IScratch.init = .ok (2, true) ∧
    test_union dbg m 4096 2 (pairTokens [(0, 1), (2, 0)]) UScratch.init = .ok (2, true) ∧
    test_intersect_many dbg stdSort insSort m 4096 3 ([[2, 0, 1], [1, 1], [0, 2]].map lineTokens)
      IScratch.init = .ok (2, true) ∧
    test_union_many dbg insSort m 4096 3 ([[2, 0, 1], [1, 1], [0, 2]].map lineTokens)
      MScratch.init = .ok (2, true) := by
  obtain ⟨m, h⟩ := queryFile true
  have hs := queryLists_small
  have hroom : ∀ q ∈ [(0, 1), (2, 0)], ∀ xs, (keptLists { size := 0 } sampleColl)[q.1]? = some xs ∨
      (keptLists { size := 0 } sampleColl)[q.2]? = some xs → HasRoom xs 80000 := by
    intro q _ xs hx
    apply hasRoom_spare
    have : xs ∈ keptLists { size := 0 } sampleColl :=
      hx.elim List.mem_of_getElem? List.mem_of_getElem?
    have := (hs xs this).1
    omega
  refine ⟨m, h, ?_⟩
  rw [C49_intersect stdSort_ok h (by omega) (by rw [queryLists]; decide) hroom _ IScratch.init_ok,
    C49_union h (by omega) (by rw [queryLists]; decide) hroom (by rw [queryLists]; decide) _
      UScratch.init_ok,
    C49_intersect_many stdSort_ok sortNat_insSort h (by decide) (by rw [queryLists]; decide)
      (by rw [queryLists]; decide) _ IScratch.init_ok,
    C49_union_many sortNat_insSort h (by decide) (by rw [queryLists]; decide)
      (by
        intro q _ Z hZ
        have hle : ∀ v ∈ Z, v < 80000 := by
          intro v hv
          obtain ⟨xs, hx, hvx⟩ := (hZ.2 v).mp hv
          unfold asked at hx
          obtain ⟨i, -, rfl⟩ := List.mem_map.mp hx
          cases e : (keptLists { size := 0 } sampleColl)[i]? with
          | none => rw [e] at hvx; simp at hvx
          | some ys =>
            rw [e] at hvx
            exact (hs ys (List.mem_of_getElem? e)).2 v hvx
        exact sorted_length_le' hZ.1 hle) _ MScratch.init_ok]
  exact ⟨rfl, rfl, rfl, rfl⟩

/-- a file that is rejected by no program that is run on it holds the lists: here the conclusion of
`C50_decode`, from an acceptance that `C49_decode` shows to happen -/
example : ∃ m idx, FileAt true { size := 0 } 80000 sampleColl m 4096 ∧ SIndex.mmap m 4096 = .ok idx ∧
    ∃ s out out', idx.get dbg m 1 = .ok s ∧ s.decode dbg m out = .ok (1, out') ∧
      out'.take 1 = [7] := by
  obtain ⟨m, h⟩ := queryFile true
  have hs := queryLists_small
  have e := (C49_decode (dbg' := dbg) h).1
    (fun xs hx => hasRoom_spare (by have := (hs xs hx).1; omega))
  obtain ⟨idx, hi, -, hall⟩ := C50_decode h.1.2.1 e
  obtain ⟨s, o, o', h1, -, h3, h4⟩ := hall 1 [7] (by rw [queryLists]; rfl)
  exact ⟨m, idx, h, hi, s, o, o', h1, h3, h4⟩

end Sliced
