import Verif.Model.Default
import Verif.Proof.Ends
import Verif.Props.ManyWay
import Verif.Model.NextGeqEnumerator
/-!
# The default-constructed sequence

C75: the object `s_sequence()` behaves as the empty set in `cardinality`, `decode`, `contains`,
`select`, the two intersections and `union_many`, and in `next_geq` for every bound but 0; in
`next_geq(0)`, `pairwise_union` and `enumerator` it reads through the null pointer, and `uncompress`
fails its assertion.
-/
namespace Sliced

variable {dbg dbg' : Bool} {pad : Nat} {m : Mem} {xs : List Nat} {s : SSeq}

/-- Nothing can be read through the null pointer. -/
def NullPage (m : Mem) : Prop := ∀ i, i < 4096 → m i = none

theorem empty_begin : SSeq.empty.begin = It.empty := rfl

theorem empty_skip (c : Nat) : It.empty.skip_to_value m c = .ok It.empty := by
  have h : It.skip_value_loop m c (It.empty.end_ - It.empty.begin_ + 1) It.empty = .ok It.empty := rfl
  unfold It.skip_to_value
  rw [h]
  show It.advance_loop m c 1 It.empty = _
  unfold It.advance_loop
  have e : It.empty.id m = .ok 65536 := rfl
  have e2 : It.empty.has_next = false := rfl
  rw [e, e2]
  simp [bind, Except.bind, pure, Except.pure]

theorem empty_type (h : NullPage m) : It.empty.type m = .error .ub := by
  unfold It.type rd16 rd8
  rw [show It.empty.header + 4 = 4 from rfl, h 4 (by omega)]
  rfl

theorem empty_card (h : NullPage m) : It.empty.cardinality m = .error .ub := by
  unfold It.cardinality rd16 rd8
  rw [show It.empty.header + 2 = 2 from rfl, h 2 (by omega)]
  rfl

/-- C75: the queries that treat the object as the empty set; nothing is read and nothing is written. -/
theorem C75_queries (dbg : Bool) (m : Mem) :
    SSeq.empty.cardinality m = .ok 0 ∧ SSeq.empty.size m = .ok 0 ∧
    (∀ out k, SSeq.empty.decode dbg m out k = .ok (0, out)) ∧
    (∀ v, v < 4294967296 → SSeq.empty.contains dbg m v = .ok false) ∧
    (∀ r v, SSeq.empty.select dbg m r v = .ok (false, v)) ∧
    (∀ v, 0 < v → SSeq.empty.next_geq dbg m v = .ok 4294967295) := by
  refine ⟨rfl, rfl, fun out k => ?_, fun v hv => ?_, fun r v => ?_, fun v hv => ?_⟩
  · show Except.ok (k - k, out) = _
    rw [Nat.sub_self]
  · unfold SSeq.contains
    have e : It.empty.id m = .ok 65536 := rfl
    simp only [empty_begin, empty_skip, ok_bind, e]
    rw [if_neg (by omega)]
    rfl
  · rfl
  · unfold SSeq.next_geq
    have e : It.empty.base m = .ok 0 := rfl
    simp only [empty_begin, empty_skip, ok_bind, e]
    rw [if_neg (by omega)]
    rfl

/-- C75: `uncompress` writes nothing and returns 0 in a release build; in a debug build the assertion
`uncompressed > 0` fails. -/
theorem C75_uncompress (m : Mem) (out : List Nat) :
    SSeq.empty.uncompress false m out = .ok (0, out) ∧
    SSeq.empty.uncompress true m out = .error .abort := ⟨rfl, rfl⟩

/-- C75: `next_geq(0)` takes the saturated id of the ended iterator for the slice of number 0 (its base
is `65536 << 16`, which is 0) and reads the slice header through the null pointer. -/
theorem C75_next_geq_zero (h : NullPage m) : SSeq.empty.next_geq dbg m 0 = .error .ub := by
  unfold SSeq.next_geq
  have e : It.empty.base m = .ok 0 := rfl
  simp only [empty_begin, empty_skip, ok_bind, e]
  rw [if_pos (Nat.le_refl 0)]
  unfold chunk_min
  rw [empty_type h]
  rfl

theorem empty_geq_next (e : GeqEnum) (he : e.it = It.empty) {v : Nat} (hv : 0 < v) :
    e.next_geq dbg m v = .ok (e, 4294967295) := by
  obtain ⟨a, b, c, d, f, g, it⟩ := e
  simp only at he
  subst he
  unfold GeqEnum.next_geq
  simp only [empty_skip, ok_bind]
  have e : It.empty.base m = .ok 0 := rfl
  simp only [e, ok_bind]
  rw [if_neg (by omega)]
  rfl

/-- C75: `next_geq_enumerator` over the object: it can be made, its size is 0, every bound but 0 is
answered with `not_found`, whatever came before, and the bound 0 reads through the null pointer. -/
theorem C75_next_geq_enumerator (dbg : Bool) (m : Mem) :
    ∃ e, GeqEnum.new m SSeq.empty = .ok e ∧ e.size = 0 ∧
      (∀ vs : List Nat, (∀ v ∈ vs, 0 < v) →
        e.run dbg m vs = .ok (List.replicate vs.length 4294967295)) ∧
      (NullPage m → ∀ vs ws : List Nat, (∀ v ∈ vs, 0 < v) →
        e.run dbg m (vs ++ 0 :: ws) = .error .ub) := by
  refine ⟨⟨4294967295, 0, 0, 0, 0, 0, It.empty⟩, rfl, rfl, fun vs hvs => ?_, fun h vs ws hvs => ?_⟩
  · induction vs with
    | nil => rfl
    | cons v vs ih =>
      unfold GeqEnum.run
      rw [empty_geq_next _ rfl (hvs v (List.mem_cons_self ..))]
      simp only [ok_bind]
      rw [ih (fun w hw => hvs w (List.mem_cons_of_mem _ hw))]
      rfl
  · induction vs with
    | nil =>
      rw [List.nil_append]
      unfold GeqEnum.run
      have : GeqEnum.next_geq dbg m ⟨4294967295, 0, 0, 0, 0, 0, It.empty⟩ 0 = .error .ub := by
        unfold GeqEnum.next_geq
        simp only [Nat.zero_div, empty_skip, ok_bind]
        have e : It.empty.base m = .ok 0 := rfl
        simp only [e, ok_bind]
        rw [if_pos (Nat.le_refl 0)]
        unfold chunk_min
        rw [empty_type h]
        rfl
      rw [this]
      rfl
    | cons v vs ih =>
      rw [List.cons_append]
      unfold GeqEnum.run
      rw [empty_geq_next _ rfl (hvs v (List.mem_cons_self ..))]
      simp only [ok_bind]
      rw [ih (fun w hw => hvs w (List.mem_cons_of_mem _ hw))]
      rfl

/-- C75: `enumerator` reads through the null pointer as soon as it is set on the object. -/
theorem C75_enumerator (h : NullPage m) (buf : List Nat) (past : Nat) :
    Enum.init dbg m buf SSeq.empty past = .error .ub := by
  unfold Enum.init
  simp only [empty_begin, empty_card h]
  rfl

/-- C75: `pairwise_intersection` with the object on either side, the other operand being any object
(even one that does not describe an encoding), returns 0, reads nothing and writes nothing. -/
theorem C75_intersection (dbg : Bool) (tab : Nat → List Nat) (m : Mem) (s : SSeq) (x out : List Nat)
    (k : Nat) :
    pairwise_intersection dbg tab m SSeq.empty s x out k = .ok (0, x, out) ∧
    pairwise_intersection dbg tab m s SSeq.empty x out k = .ok (0, x, out) := by
  have key : ∀ (l r : It) (n : Nat), (l.has_next && r.has_next) = false →
      pairwise_intersection_loop dbg tab m (n + 1) l r x out k = .ok (k, x, out) := by
    intro l r n h
    unfold pairwise_intersection_loop
    rw [h]
    rfl
  have f : It.empty.has_next = false := rfl
  constructor
  · unfold pairwise_intersection
    rw [empty_begin, key It.empty s.begin _ (by rw [f, Bool.false_and])]
    simp [bind, Except.bind, pure, Except.pure]
  · unfold pairwise_intersection
    rw [empty_begin, key s.begin It.empty _ (by rw [f, Bool.and_false])]
    simp [bind, Except.bind, pure, Except.pure]

theorem error_bind' {α β : Type} (e : Err) (f : α → Res β) : (Except.error e >>= f) = .error e := rfl

/-- C75: `pairwise_union` has no defined result on the object, on either side, with any stored list or
the object itself as the other operand. -/
theorem C75_union (h : NullPage m) (hv : Valid xs) (hs : Stored dbg' xs pad m s) (u : UScratch)
    (out : List Nat) (k : Nat) :
    pairwise_union dbg m SSeq.empty s u out k = .error .ub ∧
    pairwise_union dbg m s SSeq.empty u out k = .error .ub ∧
    pairwise_union dbg m SSeq.empty SSeq.empty u out k = .error .ub := by
  have e0 : It.empty.id m = .ok 65536 := rfl
  have d : ∀ o p, decode_chunk dbg m It.empty o p = .error .ub := by
    intro o p
    unfold decode_chunk
    rw [e0]
    simp only [ok_bind]
    rw [empty_type h]
    rfl
  have ul : ∀ r b o p, union_chunks dbg m It.empty r b u o p = .error .ub := by
    intro r b o p
    unfold union_chunks
    rw [empty_type h]
    rfl
  have hr := hs.repr hv
  have it := hr.begin
  cases hc : chunksOf xs with
  | nil => exact absurd hc hr.ne
  | cons c cs =>
    rw [hc] at it
    refine ⟨?_, ?_, ?_⟩
    · unfold pairwise_union pairwise_union_loop
      rw [empty_begin, e0, it.id]
      simp only [ok_bind]
      by_cases e : u16 65536 = u16 c.id
      · rw [if_pos e, ul]; rfl
      · rw [if_neg e, if_pos (by simp only [u16] at e ⊢; omega), d]; rfl
    · unfold pairwise_union pairwise_union_loop
      rw [empty_begin, e0, it.id]
      simp only [ok_bind]
      by_cases e : u16 c.id = u16 65536
      · rw [if_pos e]
        unfold union_chunks
        rw [it.type, empty_type h]; rfl
      · rw [if_neg e, if_neg (by simp only [u16] at e ⊢; omega), d]; rfl
    · unfold pairwise_union pairwise_union_loop
      rw [empty_begin, e0]
      simp only [ok_bind]
      rw [if_pos trivial, ul]; rfl

/-! ## The many-way operations -/

/-- the iterators without those of default-constructed objects -/
def live (its : List It) : List It := its.filter (fun it => decide (it ≠ It.empty))

theorem live_empty (its : List It) : live (It.empty :: its) = live its := by
  simp [live]

theorem live_cons {it : It} (h : it ≠ It.empty) (its : List It) : live (it :: its) = it :: live its := by
  simp [live, h]

theorem min_fold_live : ∀ (its : List It) (b : Nat), b ≤ 65536 →
    its.foldlM (fun best it => do
      let j ← it.id m
      return if j < best then j else best) b
      = ((live its).foldlM (fun best it => do
      let j ← it.id m
      return if j < best then j else best) b : Res Nat)
  | [], b, hb => rfl
  | it :: its, b, hb => by
    by_cases h : it = It.empty
    · subst h
      rw [live_empty, List.foldlM_cons, ← min_fold_live its b hb]
      show its.foldlM _ (if 65536 < b then 65536 else b) = _
      rw [if_neg (by omega)]
    · rw [live_cons h, List.foldlM_cons, List.foldlM_cons]
      cases e : it.id m with
      | error x => rfl
      | ok j =>
        simp only [ok_bind, pure_ok]
        exact min_fold_live its _ (by have := It.id_le e; split <;> omega)

theorem min_id_cons (it : It) (its : List It) : min_id m (it :: its) = it.id m >>= fun i =>
    its.foldlM (fun best it => do
      let j ← it.id m
      return if j < best then j else best) i := rfl

theorem min_id_live {its : List It} (h : live its ≠ []) : min_id m its = min_id m (live its) := by
  have key : ∀ its : List It, live its ≠ [] →
    its.foldlM (fun best it => do
      let j ← it.id m
      return if j < best then j else best) 65536 = min_id m (live its) := by
    intro its
    induction its with
    | nil => intro h; exact absurd rfl h
    | cons it its ih =>
      intro h
      by_cases e : it = It.empty
      · subst e
        rw [live_empty] at h ⊢
        rw [← ih h, List.foldlM_cons]
        rfl
      · rw [live_cons e, List.foldlM_cons, min_id_cons]
        cases e2 : it.id m with
        | error x => rfl
        | ok j =>
          have hj := It.id_le e2
          simp only [ok_bind, pure_ok]
          rw [show (if j < 65536 then j else 65536) = j by split <;> omega]
          exact min_fold_live its j hj
  cases its with
  | nil => rfl
  | cons it its =>
    by_cases e : it = It.empty
    · subst e
      rw [live_empty] at h ⊢
      exact key its h
    · rw [live_cons e, min_id_cons, min_id_cons]
      cases e2 : it.id m with
      | error x => rfl
      | ok j => exact min_fold_live its j (It.id_le e2)

theorem merge_loop_live {header : Nat} (hh : header < 65536) : ∀ (its : List It) (first : Bool)
    (s : MScratch), merge_loop dbg m header its first s = merge_loop dbg m header (live its) first s
  | [], _, _ => rfl
  | it :: its, first, s => by
    by_cases h : it = It.empty
    · subst h
      rw [live_empty, ← merge_loop_live hh its]
      have e : It.empty.id m = .ok 65536 := rfl
      rw [merge_loop, e]
      simp only [ok_bind]
      rw [if_neg (by omega)]
    · rw [live_cons h, merge_loop, merge_loop]
      simp only [merge_loop_live hh its]

theorem It.next_ne {it it' : It} (h : it.next m = .ok it') : it' ≠ It.empty := by
  unfold It.next at h
  cases e : it.offset m with
  | error x => rw [e] at h; cases h
  | ok o =>
    rw [e] at h
    injection h with h
    intro h2
    rw [h2] at h
    have := congrArg It.begin_ h
    simp [It.empty] at this

/-- the same step with and without the iterators of default-constructed objects -/
theorem step_loop_live {header : Nat} (hh : header < 65536) : ∀ (its : List It) (next : Nat),
    next ≤ 65536 →
    step_loop m header (live its) next
      = (fun r => (live r.1, r.2)) <$> step_loop m header its next
  | [], _, _ => rfl
  | it :: its, next, hn => by
    by_cases h : it = It.empty
    · subst h
      have e : It.empty.id m = .ok 65536 := rfl
      rw [live_empty, step_loop_live hh its next hn]
      rw [step_loop, e]
      simp only [ok_bind]
      rw [if_neg (by omega)]
      simp only [pure_ok, ok_bind, e]
      rw [if_neg (by omega)]
      cases step_loop m header its next with
      | error x => rfl
      | ok r =>
        obtain ⟨r1, r2⟩ := r
        show Except.ok _ = Except.ok _
        simp only [live_empty]
    · rw [live_cons h, step_loop, step_loop]
      cases e : it.id m with
      | error x => rfl
      | ok i =>
        simp only [ok_bind]
        have fin : ∀ it' : It, it' ≠ It.empty →
            (do
              let j ← it'.id m
              let (its, next) ← step_loop m header (live its) (if j < next then j else next)
              return (it' :: its, next) : Res (List It × Nat))
            = (fun r : List It × Nat => (live r.1, r.2)) <$> (do
              let j ← it'.id m
              let (its, next) ← step_loop m header its (if j < next then j else next)
              return (it' :: its, next) : Res (List It × Nat)) := by
          intro it' h'
          cases e : it'.id m with
          | error x => rfl
          | ok j =>
            have hj := It.id_le e
            simp only [ok_bind]
            rw [step_loop_live hh its _ (by split <;> omega)]
            cases step_loop m header its (if j < next then j else next) with
            | error x => rfl
            | ok r =>
              obtain ⟨r1, r2⟩ := r
              show Except.ok _ = Except.ok _
              simp only [live_cons h']
        by_cases hi : i = header
        · rw [if_pos hi, if_pos hi]
          cases e2 : it.next m with
          | error x => rfl
          | ok it' => exact fin it' (It.next_ne e2)
        · rw [if_neg hi, if_neg hi]
          exact fin it h

theorem union_many_loop_live : ∀ (f : Nat) (its : List It) (header : Nat) (s : MScratch)
    (buf : List Nat) (out : Nat),
    union_many_loop dbg m f its header s buf out
      = union_many_loop dbg m f (live its) header s buf out
  | 0, _, _, _, _, _ => rfl
  | f + 1, its, header, s, buf, out => by
    unfold union_many_loop
    by_cases hh : header < 65536
    · rw [if_pos hh, if_pos hh, ← merge_loop_live hh its, step_loop_live hh its _ (Nat.le_refl _)]
      cases merge_loop dbg m header its true s with
      | error x => rfl
      | ok r =>
        obtain ⟨b, s⟩ := r
        simp only [ok_bind]
        cases decode_bitmap (vecWords s.bitmap) 1024 (u32 (header * 65536)) buf out with
        | error x => rfl
        | ok r =>
          obtain ⟨k, buf⟩ := r
          simp only [ok_bind]
          cases step_loop m header its 65536 with
          | error x => rfl
          | ok r =>
            obtain ⟨its', next⟩ := r
            exact union_many_loop_live f its' next s buf (out + k)
    · rw [if_neg hh, if_neg hh]

theorem begin_ne {s : SSeq} (h : s ≠ SSeq.empty) : s.begin ≠ It.empty := by
  intro e
  apply h
  obtain ⟨a, b, c, d⟩ := s
  simp only [SSeq.begin, It.empty, It.mk.injEq] at e
  simp [SSeq.empty, e]

theorem live_begin (qs : List SSeq) :
    live (qs.map SSeq.begin)
      = (qs.filter (fun q => decide (q ≠ SSeq.empty))).map SSeq.begin := by
  induction qs with
  | nil => rfl
  | cons q qs ih =>
    by_cases h : q = SSeq.empty
    · subst h
      rw [List.map_cons, empty_begin, live_empty, ih]
      simp
    · rw [List.map_cons, live_cons (begin_ne h), ih, List.filter_cons_of_pos (by simpa using h)]
      rfl

theorem sum_live (its : List It) : (its.map It.end_).sum = ((live its).map It.end_).sum := by
  induction its with
  | nil => rfl
  | cons it its ih =>
    by_cases h : it = It.empty
    · subst h
      rw [live_empty, List.map_cons, List.sum_cons, ih]
      show 0 + _ = _
      omega
    · rw [live_cons h, List.map_cons, List.map_cons, List.sum_cons, List.sum_cons, ih]

/-- C75: `union_many` gives the same result (and leaves the same static buffers), on any objects and for
any contents of memory, whether default-constructed objects are among them or not, as long as there are
others. -/
theorem C75_union_many (dbg : Bool) (m : Mem) (qs : List SSeq) (h : ∃ q ∈ qs, q ≠ SSeq.empty)
    (s : MScratch) (out : List Nat) (k : Nat) :
    union_many dbg m qs s out k
      = union_many dbg m (qs.filter (fun q => decide (q ≠ SSeq.empty))) s out k := by
  unfold union_many
  have hl : live (qs.map SSeq.begin) ≠ [] := by
    obtain ⟨q, hq, hne⟩ := h
    rw [live_begin]
    intro e
    have : q.begin ∈ (qs.filter (fun q => decide (q ≠ SSeq.empty))).map SSeq.begin :=
      List.mem_map.mpr ⟨q, List.mem_filter.mpr ⟨hq, by simpa using hne⟩, rfl⟩
    rw [e] at this
    cases this
  simp only [← live_begin]
  rw [min_id_live hl, sum_live]
  simp only [union_many_loop_live _ (qs.map SSeq.begin)]

/-- C75: `union_many` of default-constructed objects only is empty. -/
theorem C75_union_many_none (dbg : Bool) (m : Mem) (n : Nat) (s : MScratch) (out : List Nat) (k : Nat) :
    union_many dbg m (List.replicate (n + 1) SSeq.empty) s out k = .ok (0, s, out) := by
  have hf : ∀ n : Nat, (List.replicate n It.empty).foldlM (fun best it => do
      let j ← it.id m
      return if j < best then j else best) 65536 = (.ok 65536 : Res Nat) := by
    intro n
    induction n with
    | zero => rfl
    | succ n ih => rw [List.replicate_succ, List.foldlM_cons]; exact ih
  unfold union_many
  simp only [List.map_replicate, empty_begin]
  have : min_id m (List.replicate (n + 1) It.empty) = .ok 65536 := hf n
  rw [this]
  simp only [ok_bind]
  rw [show 65537 + (List.replicate (n + 1) It.empty.end_).sum
    = (65536 + (List.replicate (n + 1) It.empty.end_).sum) + 1 by omega]
  unfold union_many_loop
  rw [if_neg (Nat.lt_irrefl _)]
  simp only [ok_bind, Nat.sub_self, pure_ok]

/-- C75: `intersection` (many-way) of any number of stored lists and at least one default-constructed
object, in any order, is empty, whatever `std::sort` does with ties: the object has the least
cardinality, so it comes first, and it has no slice to offer. -/
theorem C75_intersection_many {sort : (SSeq → Nat) → List SSeq → List SSeq} (hsort : SortOk sort)
    {qs : List SSeq} (hqs : ∀ q ∈ qs, q = SSeq.empty ∨ ∃ xs, Valid xs ∧ Stored dbg' xs pad m q)
    (he : SSeq.empty ∈ qs) (s : IScratch) (out : List Nat) (k : Nat) :
    ∃ qs', intersection dbg sort m qs s out k = .ok (0, qs', s, out) ∧ qs'.Perm qs := by
  have hc : ∀ q ∈ qs, ∃ c, q.cardinality m = .ok c ∧ (c = 0 → q = SSeq.empty) := by
    intro q hq
    rcases hqs q hq with rfl | ⟨xs, hv, hs⟩
    · exact ⟨0, rfl, fun _ => rfl⟩
    · refine ⟨xs.length, (C03_cardinality hv hs).1, fun h => ?_⟩
      exact absurd (List.length_eq_zero_iff.mp h) hv.1
  have hk : ∀ l : List SSeq, (∀ q ∈ l, ∃ c, q.cardinality m = .ok c ∧ (c = 0 → q = SSeq.empty)) →
      ∃ ks : List (SSeq × Nat), l.mapM (fun q => do let c ← q.cardinality m; return (q, c)) = .ok ks ∧
        (∀ q ∈ l, ∃ c, (q, c) ∈ ks) ∧ (∀ p ∈ ks, p.1.cardinality m = .ok p.2) := by
    intro l
    induction l with
    | nil => exact fun _ => ⟨[], rfl, by simp, by simp⟩
    | cons q l ih =>
      intro h
      obtain ⟨ks, e, h1, h2⟩ := ih (fun q hq => h q (List.mem_cons_of_mem _ hq))
      obtain ⟨c, e2, -⟩ := h q (List.mem_cons_self ..)
      refine ⟨(q, c) :: ks, ?_, ?_, ?_⟩
      · rw [List.mapM_cons, e2, e]; rfl
      · intro r hr
        rcases List.mem_cons.mp hr with rfl | hr
        · exact ⟨c, List.mem_cons_self ..⟩
        · obtain ⟨d, hd⟩ := h1 r hr
          exact ⟨d, List.mem_cons_of_mem _ hd⟩
      · intro p hp
        rcases List.mem_cons.mp hp with rfl | hp
        · exact e2
        · exact h2 p hp
  obtain ⟨ks, e, h1, h2⟩ := hk qs hc
  let key : SSeq → Nat := fun q => ((ks.find? (fun p => p.1 = q)).map Prod.snd).getD 0
  have hkey : ∀ q ∈ qs, q.cardinality m = .ok (key q) := by
    intro q hq
    show q.cardinality m = .ok (((ks.find? (fun p => p.1 = q)).map Prod.snd).getD 0)
    cases ef : ks.find? (fun p => p.1 = q) with
    | none =>
      obtain ⟨c, hc⟩ := h1 q hq
      have := List.find?_eq_none.mp ef (q, c) hc
      simp at this
    | some p =>
      have h3 : p.1 = q := of_decide_eq_true
        (List.find?_some (p := fun p : SSeq × Nat => decide (p.1 = q)) ef)
      have h4 := h2 p (List.mem_of_find?_eq_some ef)
      rw [h3] at h4
      exact h4
  obtain ⟨hp, hs⟩ := hsort key qs
  refine ⟨sort key qs, ?_, hp⟩
  unfold intersection
  rw [e]
  simp only [ok_bind]
  rw [show sort (fun q => ((ks.find? (fun p => p.1 = q)).map Prod.snd).getD 0) qs = sort key qs from rfl]
  cases hq : sort key qs with
  | nil =>
    rw [hq] at hp
    rw [List.nil_perm.mp hp] at he
    cases he
  | cons q qs' =>
    have hm : q ∈ qs := hp.mem_iff.mp (by rw [hq]; exact List.mem_cons_self ..)
    have h0 : key q ≤ key SSeq.empty := by
      have hmem : SSeq.empty ∈ q :: qs' := by rw [← hq]; exact hp.mem_iff.mpr he
      rw [hq] at hs
      rcases List.mem_cons.mp hmem with h | h
      · rw [h]; exact Nat.le_refl _
      · exact (List.pairwise_cons.mp hs).1 _ h
    have h00 : key SSeq.empty = 0 := Except.ok.inj ((hkey _ he).symm.trans (rfl : _ = Except.ok 0))
    have hqe : q = SSeq.empty := by
      obtain ⟨c, e1, e2⟩ := hc q hm
      rw [hkey q hm] at e1
      exact e2 (by rw [← Except.ok.inj e1]; omega)
    subst hqe
    have : intersection_sorted dbg m (SSeq.empty :: qs') s out k = .ok (0, s, out) := by
      unfold intersection_sorted
      have e1 : rdIt ((SSeq.empty :: qs').map SSeq.begin) 0 = .ok It.empty := rfl
      have e2 : It.empty.id m = .ok 65536 := rfl
      have e3 : ∀ its : List It, candidate_while m ((It.empty.end_ + 1) * 65537) its 65536 1 s.headers 0
          = .ok (0, s.headers) := fun _ => rfl
      simp only [e1, ok_bind, e2, e3]
      show Except.ok (k - k, s, out) = _
      rw [Nat.sub_self]
    rw [this]
    rfl

/-- C75, C13: so the union of stored lists and default-constructed objects is the union of the lists. -/
theorem C75_union_many_lists {ps : List (List Nat × SSeq)} {Z : List Nat} (hps : StoredAll dbg' pad m ps)
    (hne : ps ≠ []) {qs : List SSeq}
    (hq : qs.filter (fun q => decide (q ≠ SSeq.empty)) = ps.map Prod.snd)
    (hZ : Enumerates Z (fun v => ∃ p ∈ ps, v ∈ p.1)) (s : MScratch) (hs : s.Ok)
    (out : List Nat) (k : Nat) (hcap : k + Z.length ≤ out.length) :
    ∃ s' out', union_many dbg m qs s out k = .ok (Z.length, s', out') ∧
      s'.Ok ∧ Wrote out k Z 0 out' := by
  rw [C75_union_many dbg m qs ?_ s out k, hq]
  · exact C13_union hps hne hZ s hs out k hcap
  · cases ps with
    | nil => exact absurd rfl hne
    | cons p ps =>
      have : p.2 ∈ qs.filter (fun q => decide (q ≠ SSeq.empty)) := by
        rw [hq]; exact List.mem_cons_self ..
      obtain ⟨h1, h2⟩ := List.mem_filter.mp this
      exact ⟨p.2, h1, of_decide_eq_true h2⟩

/-- a stored list is not the default-constructed object -/
theorem Stored.ne_empty (hv : Valid xs) (hs : Stored dbg xs pad m s) : s ≠ SSeq.empty := by
  rintro rfl
  have h := (C03_cardinality hv hs).1
  have h0 : SSeq.empty.cardinality m = .ok 0 := rfl
  rw [h0] at h
  exact hv.1 (List.length_eq_zero_iff.mp (Except.ok.inj h).symm)

/-! ## Concrete cases -/

theorem nullPage_memOf (bs : List UInt8) (pad : Nat) : NullPage (memOf 4096 bs pad) := by
  intro i hi
  unfold memOf
  rw [if_pos hi]

example (bs : List UInt8) : SSeq.empty.next_geq true (memOf 4096 bs 0) 0 = .error .ub ∧
    SSeq.empty.next_geq true (memOf 4096 bs 0) 1 = .ok 4294967295 ∧
    Enum.init false (memOf 4096 bs 0) (List.replicate 65536 0) SSeq.empty 7 = .error .ub :=
  ⟨C75_next_geq_zero (nullPage_memOf bs 0), (C75_queries _ _).2.2.2.2.2 1 (by omega),
    C75_enumerator (nullPage_memOf bs 0) _ _⟩

/-- three bounds, then the bound 0 -/
example : ∃ e, GeqEnum.new (memOf 4096 [] 0) SSeq.empty = .ok e ∧
    e.run true (memOf 4096 [] 0) [5, 70000, 4294967295] = .ok [4294967295, 4294967295, 4294967295] ∧
    e.run true (memOf 4096 [] 0) [5, 70000, 0] = .error .ub := by
  obtain ⟨e, h1, -, h2, h3⟩ := C75_next_geq_enumerator true (memOf 4096 [] 0)
  exact ⟨e, h1, h2 [5, 70000, 4294967295] (by simp),
    h3 (nullPage_memOf _ _) [5, 70000] [] (by simp)⟩

/-- the union with a stored list of four values is undefined, the intersection is empty -/
example : ∃ m s, NullPage m ∧ Stored true [3, 5, 300, 70000] 0 m s ∧
    pairwise_union true m s SSeq.empty UScratch.init (List.replicate 300 9) 0 = .error .ub ∧
    pairwise_intersection true stdTab m s SSeq.empty (List.replicate 1024 0) [1, 2] 0
      = .ok (0, List.replicate 1024 0, [1, 2]) := by
  obtain ⟨st, bytes, -, h⟩ := stored_total true small_valid
  obtain ⟨s, -, hs⟩ := h (memOf 4096 bytes 0) 4096 0 (loaded_memOf _ _ _) (readable_memOf _ _ _)
  exact ⟨_, s, nullPage_memOf _ _, hs,
    (C75_union (nullPage_memOf _ _) small_valid hs _ _ _).2.1, (C75_intersection _ _ _ _ _ _ _).2⟩

/-- three stored lists and two default-constructed objects -/
example : ∃ m ps Z, ∃ s' out', StoredAll true 31 m ps ∧ ps.map Prod.fst = [sampleList, [3, 5, 300, 70000], [3, 5, 300, 70000]] ∧
    Enumerates Z (fun v => ∃ p ∈ ps, v ∈ p.1) ∧
    union_many true m (SSeq.empty :: (ps.map Prod.snd ++ [SSeq.empty])) MScratch.init
      (List.replicate Z.length 9) 0 = .ok (Z.length, s', out') ∧ out'.take Z.length = Z := by
  obtain ⟨m, ps, p, e, h, hp, -, hne⟩ := three_stored
  have hZ := uniAll_spec (fun p hp => (h p hp).1)
  have hq : (SSeq.empty :: (ps.map Prod.snd ++ [SSeq.empty])).filter
      (fun q => decide (q ≠ SSeq.empty)) = ps.map Prod.snd := by
    rw [List.filter_cons_of_neg (by simp), List.filter_append, List.filter_eq_self.mpr]
    · simp
    · intro q hq
      obtain ⟨p, hp, rfl⟩ := List.mem_map.mp hq
      simpa using (h p hp).2.ne_empty (h p hp).1
  obtain ⟨s', o, e1, -, w⟩ := C75_union_many_lists (dbg := true) h hne hq hZ MScratch.init
    MScratch.init_ok (List.replicate _ 9) 0
    (by rw [List.length_replicate, Nat.zero_add]; exact Nat.le_refl _)
  exact ⟨m, ps, _, s', o, h, e, hZ, e1, w.take_zero⟩

example : ∃ m ps qs', StoredAll true 31 m ps ∧ ps ≠ [] ∧
    intersection true stdSort m (ps.map Prod.snd ++ [SSeq.empty]) IScratch.init [8, 8] 0
      = .ok (0, qs', IScratch.init, [8, 8]) := by
  obtain ⟨m, ps, p, e, h, hp, -, hne⟩ := three_stored
  have hq : ∀ q ∈ ps.map Prod.snd ++ [SSeq.empty],
      q = SSeq.empty ∨ ∃ xs, Valid xs ∧ Stored true xs 31 m q := by
    intro q hq
    rcases List.mem_append.mp hq with hq | hq
    · obtain ⟨p, hp, rfl⟩ := List.mem_map.mp hq
      exact .inr ⟨p.1, h p hp⟩
    · exact .inl (List.mem_singleton.mp hq)
  obtain ⟨qs', e1, -⟩ := C75_intersection_many (dbg := true) stdSort_ok hq (by simp) IScratch.init
    [8, 8] 0
  exact ⟨m, ps, qs', h, hne, e1⟩

end Sliced
