import Verif.Props.Tests
import Verif.Props.ManyWay
import Verif.Props.Generators
/-!
# C49, continued: the tests of `uncompress`, of the intersections and of the unions
-/
namespace Sliced

variable {dbg dbg' : Bool} {params : Params} {univ a : Nat} {lists : List (List Nat)} {m : Mem}

/-! ## test_uncompress -/

/-- `decode_bitmap_and_reset` is `decode_bitmap`, and clears the words it has read. -/
theorem decode_and_reset_loop_eq (n i base : Nat) {bitmap : List Nat} {out : List Nat} {p p' : Nat}
    {out' : List Nat} (hb : i + n = bitmap.length)
    (h : decode_bitmap_loop (vecWords bitmap) n i base out p = .ok (p', out')) :
    decode_and_reset_loop n i base bitmap out p
      = .ok (p', bitmap.take i ++ List.replicate n 0, out') := by
  suffices H : ∀ (n i base : Nat) (cur : List Nat) (out : List Nat) (p : Nat),
      i + n = bitmap.length → cur.length = bitmap.length → cur.drop i = bitmap.drop i →
      decode_bitmap_loop (vecWords bitmap) n i base out p = .ok (p', out') →
      decode_and_reset_loop n i base cur out p
        = .ok (p', cur.take i ++ List.replicate n 0, out') from
    H n i base bitmap out p hb rfl rfl h
  clear h hb out p base i n
  intro n
  induction n with
  | zero =>
    intro i base cur out p hb hc hd h
    simp only [decode_bitmap_loop, Except.ok.injEq, Prod.mk.injEq] at h
    obtain ⟨rfl, rfl⟩ := h
    rw [decode_and_reset_loop, List.take_of_length_le (by omega)]
    simp
  | succ n ih =>
    intro i base cur out p hb hc hd h
    rw [decode_bitmap_loop] at h
    rw [decode_and_reset_loop]
    have hi : i < bitmap.length := by omega
    have hw : rdv cur i = .ok bitmap[i] := by
      apply rdv_of
      have := congrArg (fun l => l[0]?) hd
      simp only [List.getElem?_drop, Nat.add_zero] at this
      rw [this, List.getElem?_eq_getElem hi]
    have hw' : vecWords bitmap i = .ok bitmap[i] := rdv_of (List.getElem?_eq_getElem hi)
    rw [hw', ok_bind] at h
    rw [hw, ok_bind]
    cases e : scan_word 65 bitmap[i] base out p with
    | error x => rw [e] at h; cases h
    | ok r =>
      obtain ⟨p1, out1⟩ := r
      rw [e] at h
      simp only [ok_bind] at h ⊢
      rw [wr_of (by omega), ok_bind, ih (i + 1) _ (cur.set i 0) out1 p1 (by omega)
        (by rw [List.length_set, hc]) ?_ h]
      · have e2 : (cur.set i 0).take (i + 1) = cur.take i ++ [0] := by
          rw [List.take_add_one, List.take_set_of_le (Nat.le_refl _),
            List.getElem?_set_self (by omega)]
          rfl
        rw [e2, List.append_assoc, List.replicate_succ]
        rfl
      · rw [List.drop_set_of_lt (by omega), ← List.drop_drop, hd, List.drop_drop]

theorem bitmap_words_le (univ : Nat) : 64 * bitmap_words univ ≤ 4294967296 := by
  unfold bitmap_words u32
  omega

/-- what holds between two lists: nothing is wrong, the bitmap is clear -/
def ClearAt (N univ : Nat) (_ : Nat) (s : Bool × List Nat × List Nat) : Prop :=
  s.1 = true ∧ s.2.1 = List.replicate N 0 ∧ s.2.2.length = univ

theorem check_uncompress_spec {idx : SIndex} {N : Nat}
    (h : Indexed dbg (keptLists params lists) univ m a idx)
    (hlen : ∀ xs ∈ keptLists params lists, xs.length ≤ univ) (hN : bitmap_words univ = N)
    (hbw : 64 * N ≤ 4294967296) (j : Nat) (xs : List Nat) (p : Nat) (s : Bool × List Nat × List Nat)
    (hj : (keptAt params lists)[j]? = some (xs, p)) (hQ : ClearAt N univ j s) :
    ((∀ x ∈ xs, (x / 65536 + 1) * 1024 ≤ N) → ∃ s', check_uncompress dbg' m idx
      (collection univ lists) j xs.length (xs.getLast?.getD 0) p s = .ok s' ∧
      ClearAt N univ (j + 1) s') ∧
    ((¬ ∀ x ∈ xs, (x / 65536 + 1) * 1024 ≤ N) → check_uncompress dbg' m idx
      (collection univ lists) j xs.length (xs.getLast?.getD 0) p s = .error .ub) := by
  obtain ⟨g, bm, o⟩ := s
  obtain ⟨hg, hbm, ho⟩ := hQ
  simp only at hg hbm ho
  subst hg hbm
  obtain ⟨hk, hat⟩ := keptAt_spec (univ := univ) hj
  have hm := List.mem_of_getElem? hk
  have hv := h.valid _ hm
  obtain ⟨s, b, hs, -, hst⟩ := h.get j _ hk dbg'
  unfold check_uncompress
  rw [hs, ok_bind, h.univ, hN]
  constructor
  · intro hr
    obtain ⟨bm, e, hl, hw, hbit⟩ := C07_uncompress_zeroed (dbg' := dbg') hv hst.stored N hr
    have hW : BitsAt (vecWords bm) (0 + N) (fun v => decide (v ∈ xs)) := by
      intro i hi
      refine ⟨bm[i]'(by omega), rdv_of (List.getElem?_eq_getElem (by omega)),
        hw _ (List.getElem_mem _), fun j hj => ?_⟩
      have := hbit (64 * i + j)
      unfold bitOf at this
      rw [show (64 * i + j) / 64 = i by omega, show (64 * i + j) % 64 = j by omega,
        List.getElem?_eq_getElem (by omega)] at this
      exact this
    have hf : (List.range' (64 * 0) (64 * N)).filter (fun v => decide (v ∈ xs)) = xs := by
      apply sorted_ext (List.Pairwise.filter _ List.pairwise_lt_range') hv.2.1
      intro v
      rw [List.mem_filter, List.mem_range'_1, decide_eq_true_eq]
      refine ⟨fun h => h.2, fun h => ⟨?_, h⟩⟩
      have := hr v h
      omega
    obtain ⟨o', ed, w⟩ := decode_bitmap_loop_spec N 0 (b := 0) (p := 0) (out := o) hW (by omega)
      (by rw [hf, ho]; have := hlen _ hm; omega)
    rw [hf] at ed w
    have hz : u32 (0 + 64 * 0) = 0 := by unfold u32; omega
    rw [hz] at ed
    have er := decode_and_reset_loop_eq N 0 0 (by omega) ed
    rw [show xs.map (0 + ·) = xs by simp] at w
    refine ⟨(true, List.replicate N 0, o'), ?_, rfl, rfl, w.1.trans ho⟩
    rw [e]
    simp only [ok_bind, decode_bitmap_and_reset]
    rw [er]
    simp only [ok_bind, Nat.zero_add, beq_self_eq_true, Bool.and_self, List.take_zero,
      List.nil_append]
    rw [compare_lists_good hat (fun i hi => by have := w.2.2.1 i hi; rwa [Nat.zero_add] at this)]
    rfl
  · intro hr
    obtain ⟨x, hx, hlt⟩ : ∃ x ∈ xs, N < (x / 65536 + 1) * 1024 := by
      apply Classical.byContradiction
      intro hno
      exact hr (fun x hx => Nat.le_of_not_lt (fun hlt => hno ⟨x, hx, hlt⟩))
    rw [C43_uncompress (dbg' := dbg') hv hst.stored (List.replicate N 0)
      (fun w hw => by rw [(List.mem_replicate.mp hw).2]; omega) hx
      (by rw [List.length_replicate]; exact hlt)]
    rfl

/-- C49: `test_uncompress` reports that everything is good if the bitmap of the program covers the
slices of all lists and `universe()` slots hold each list. -/
theorem C49_uncompress (h : FileAt dbg params univ lists m a)
    (hlen : ∀ xs ∈ keptLists params lists, xs.length ≤ univ) :
    ((∀ xs ∈ keptLists params lists, ∀ x ∈ xs, (x / 65536 + 1) * 1024 ≤ bitmap_words univ) →
      test_uncompress dbg' m a params (collection univ lists)
        = .ok ((keptLists params lists).length, true)) ∧
    ((∃ xs ∈ keptLists params lists, ¬ ∀ x ∈ xs, (x / 65536 + 1) * 1024 ≤ bitmap_words univ) →
      test_uncompress dbg' m a params (collection univ lists) = .error .ub) := by
  have hg := h.1
  obtain ⟨idx, h⟩ := h.indexed
  have hbw := bitmap_words_le univ
  generalize hN : bitmap_words univ = N at *
  have key := check_uncompress_spec (dbg' := dbg') h hlen hN hbw
  have h0 : ClearAt N univ 0 (true, List.replicate N 0, List.replicate univ 0) :=
    ⟨rfl, rfl, List.length_replicate⟩
  constructor
  · intro hr
    unfold test_uncompress
    rw [h.map, ok_bind, test_collection_eq hg.2.1, h.univ, hN]
    obtain ⟨s, e, hs⟩ := overLists_spec (ClearAt N univ) (keptAt params lists) 0 _ h0
      (fun j xs p s hj hs => by
        rw [Nat.zero_add] at hs ⊢
        exact (key j xs p s hj hs).1 (hr xs (List.mem_of_getElem? (keptAt_spec (univ := univ) hj).1)))
    rw [e, hs.1, Nat.zero_add, keptAt_length]
  · intro hr
    obtain ⟨k, xs, hk, hn, hfirst⟩ := first_failure hr
    have hk' := hk
    rw [← keptAt_fst, List.getElem?_map, Option.map_eq_some_iff] at hk'
    obtain ⟨⟨xs', q⟩, hq, rfl⟩ := hk'
    unfold test_uncompress
    rw [h.map, ok_bind, test_collection_eq hg.2.1, h.univ, hN]
    refine overLists_err (ClearAt N univ) (keptAt params lists) 0 _ k xs' q h0 hq
      (fun j ys p s hjk hj hs => ?_) (fun s hs => ?_)
    · rw [Nat.zero_add] at hs ⊢
      exact (key j ys p s hj hs).1 (hfirst j ys hjk (keptAt_spec (univ := univ) hj).1)
    · rw [Nat.zero_add] at hs ⊢
      exact (key k xs' q s hq hs).2 hn

/-! ## The algorithms the results are compared with -/

theorem merge_common_eq {l r : List Nat} (hl : l.Pairwise (· < ·)) (hr : r.Pairwise (· < ·)) :
    merge_common l r = inter l r := by
  induction l, r using merge_common.induct with
  | case1 r => rw [merge_common]; rfl
  | case2 x l => rw [merge_common]; simp [inter]
  | case3 x l y r hxy ih =>
    rw [merge_common, if_pos hxy, ih hl.of_cons hr]
    have : x ∉ y :: r := by
      intro hm
      rcases List.mem_cons.mp hm with rfl | hm
      · omega
      · have := List.rel_of_pairwise_cons hr hm; omega
    unfold inter
    rw [List.filter_cons_of_neg (by simpa using this)]
  | case4 x l y r hxy hyx ih =>
    rw [merge_common, if_neg hxy, if_pos hyx, ih hl hr.of_cons]
    apply List.filter_congr
    intro v hv
    have : v ≠ y := by
      rintro rfl
      rcases List.mem_cons.mp hv with rfl | hv
      · omega
      · have := List.rel_of_pairwise_cons hl hv; omega
    simp [this]
  | case5 x l y r hxy hyx ih =>
    have e : x = y := by omega
    subst e
    rw [merge_common, if_neg hxy, if_neg hyx, ih hl.of_cons hr.of_cons]
    unfold inter
    rw [List.filter_cons_of_pos (by simp)]
    congr 1
    apply List.filter_congr
    intro v hv
    have := List.rel_of_pairwise_cons hl hv
    have : v ≠ x := by omega
    simp [this]

theorem merge_all_eq (l r : List Nat) : merge_all l r = uni l r := by
  induction l, r using merge_all.induct with
  | case1 r => rw [merge_all, uni]
  | case2 x l => rw [merge_all, uni]
  | case3 x l y r hxy ih => rw [merge_all, uni, if_pos hxy, if_pos hxy, ih]
  | case4 x l y r hxy hyx ih =>
    rw [merge_all, uni, if_neg hxy, if_neg hxy, if_pos hyx, if_pos hyx, ih]
  | case5 x l y r hxy hyx ih =>
    rw [merge_all, uni, if_neg hxy, if_neg hxy, if_neg hyx, if_neg hyx, ih]

/-- equal results are found to be equal -/
theorem compare_results_good {E O Z : List Nat} (hE : ∀ i, i < Z.length → E[i]? = Z[i]?)
    (hO : ∀ i, i < Z.length → O[i]? = Z[i]?) :
    compare_results E O Z.length true = .ok true := by
  unfold compare_results
  obtain ⟨s, e, h⟩ := forRange_spec (fun _ (g : Bool) => g = true) Z.length 0 true rfl
    (body := fun i good => do
      let x ← rdv E i
      let y ← rdv O i
      return good && (x == y)) (by
      rintro j g _ hj rfl
      have hx : Z[j]? = some Z[j] := List.getElem?_eq_getElem (by omega)
      refine ⟨true, ?_, rfl⟩
      rw [rdv_of ((hE j (by omega)).trans hx), ok_bind, rdv_of ((hO j (by omega)).trans hx), ok_bind]
      simp)
  rw [e, h]

/-! ## test_intersect and test_union -/

/-- the four vectors have `univ` slots -/
def Bufs.Len (univ : Nat) (b : Bufs) : Prop :=
  b.out.length = univ ∧ b.i.length = univ ∧ b.j.length = univ ∧ b.expected.length = univ

theorem Bufs.init_len (univ : Nat) : (Bufs.init univ).Len univ :=
  ⟨List.length_replicate, List.length_replicate, List.length_replicate, List.length_replicate⟩

/-- one query whose operation is right -/
theorem check_pair_good {τ : Type} {ks : List (List Nat)} {idx : SIndex}
    (h : Indexed dbg ks univ m a idx) {merge : List Nat → List Nat → List Nat}
    {op : SSeq → SSeq → τ → List Nat → Res (Nat × τ × List Nat)} {q : Nat × Nat} {xs ys : List Nat}
    (hx : ks[q.1]? = some xs) (hy : ks[q.2]? = some ys) (rx : HasRoom xs univ) (ry : HasRoom ys univ)
    {b : Bufs} (hb : b.Len univ) {t : τ} {k : Nat} {Q : τ → Prop}
    (hZ : (merge xs ys).length ≤ univ)
    (hop : ∀ l r bl br, idx.get dbg' m q.1 = .ok l → idx.get dbg' m q.2 = .ok r →
      bl.length = encodedSize xs → br.length = encodedSize ys →
      StoredAt dbg xs 31 m (a + startAt ks q.1) bl l → StoredAt dbg ys 31 m (a + startAt ks q.2) br r →
      ∃ t' out', op l r t b.out = .ok ((merge xs ys).length, t', out') ∧ Q t' ∧
        Wrote b.out 0 (merge xs ys) k out') :
    ∃ b' t', check_pair dbg' m idx merge op q (true, b, t) = .ok (true, b', t') ∧ b'.Len univ ∧
      Q t' := by
  obtain ⟨l, bl, hl, ll, sl⟩ := h.get _ _ hx dbg'
  obtain ⟨r, br, hr, lr, sr⟩ := h.get _ _ hy dbg'
  have vx := h.valid _ (List.mem_of_getElem? hx)
  have vy := h.valid _ (List.mem_of_getElem? hy)
  obtain ⟨b1, b2, b3, b4⟩ := hb
  obtain ⟨i', ei, wi⟩ := (C43_decode (dbg' := dbg') vx sl.stored b.i).1 (by rwa [b2])
  obtain ⟨j', ej, wj⟩ := (C43_decode (dbg' := dbg') vy sr.stored b.j).1 (by rwa [b3])
  have ti : i'.take xs.length = xs := by have := wi.take; rwa [List.drop_zero] at this
  have tj : j'.take ys.length = ys := by have := wj.take; rwa [List.drop_zero] at this
  obtain ⟨E, eE, wE⟩ := wrs_of (vs := merge xs ys) (out := b.expected) (p := 0) (by omega)
  obtain ⟨t', o', eo, ht, wo⟩ := hop l r bl br hl hr ll lr sl sr
  refine ⟨⟨o', i', j', E⟩, t', ?_, ⟨wo.1.trans b1, wi.1.trans b2, wj.1.trans b3, wE.1.trans b4⟩, ht⟩
  unfold check_pair
  rw [hl]
  simp only [ok_bind]
  rw [ei]
  simp only [ok_bind]
  rw [hr]
  simp only [ok_bind]
  rw [ej]
  simp only [ok_bind]
  rw [ti, tj, eE]
  simp only [ok_bind]
  rw [eo]
  simp only [ok_bind, beq_self_eq_true, Bool.and_self]
  rw [compare_results_good
    (fun i hi => by have := wE.2.2.1 i hi; rwa [Nat.zero_add] at this)
    (fun i hi => by have := wo.2.2.1 i hi; rwa [Nat.zero_add] at this)]
  rfl

/-- C49: `test_intersect` reports that everything is good, for any queries with indexes of stored
sequences, if each queried list has room in a buffer of `universe()` slots. -/
theorem C49_intersect {sort : (SSeq → Nat) → List SSeq → List SSeq} (hsort : SortOk sort) {n : Nat}
    {qs : List (Nat × Nat)} (h : FileAt dbg params univ lists m a) (hn : n < 4294967296)
    (hq : ∀ q ∈ qs, q.1 < (keptLists params lists).length ∧ q.2 < (keptLists params lists).length)
    (hroom : ∀ q ∈ qs, ∀ xs, (keptLists params lists)[q.1]? = some xs ∨
      (keptLists params lists)[q.2]? = some xs → HasRoom xs univ)
    (x : IScratch) (hx : x.Ok) :
    test_intersect dbg' sort m a n (pairTokens qs) x = .ok ((qs.take n).length, true) := by
  obtain ⟨idx, h⟩ := h.indexed
  generalize keptLists params lists = ks at *
  unfold test_intersect
  rw [limit_pairs hn, h.map]
  simp only [ok_bind, h.univ]
  replace hq : ∀ q ∈ qs.take n, q.1 < ks.length ∧ q.2 < ks.length :=
    fun q hm => hq q (List.mem_of_mem_take hm)
  replace hroom := fun q (hm : q ∈ qs.take n) => hroom q (List.mem_of_mem_take hm)
  generalize qs.take n = qs' at *
  obtain ⟨⟨g, b, t⟩, e, hg, -⟩ := forEach_spec
    (fun _ (s : Bool × Bufs × IScratch) => s.1 = true ∧ s.2.1.Len univ ∧ s.2.2.Ok) qs' []
    (true, Bufs.init univ, x) ⟨rfl, Bufs.init_len univ, hx⟩
    (body := check_pair dbg' m idx merge_common (fun l r x out => do
      let (n, _, x, out) ← intersection dbg' sort m [l, r] x out
      return (n, x, out))) (by
      rintro pre q ⟨g, b, t⟩ hqm ⟨hg, hb, ht⟩
      simp only at hg hb ht
      subst hg
      obtain ⟨h1, h2⟩ := hq q hqm
      have e1 : ks[q.1]? = some ks[q.1] := List.getElem?_eq_getElem h1
      have e2 : ks[q.2]? = some ks[q.2] := List.getElem?_eq_getElem h2
      have r1 := hroom q hqm _ (.inl e1)
      have r2 := hroom q hqm _ (.inr e2)
      have vx := h.valid _ (List.mem_of_getElem? e1)
      have vy := h.valid _ (List.mem_of_getElem? e2)
      have em := merge_common_eq vx.2.1 vy.2.1
      have hlen := inter_length_le ks[q.1] ks[q.2]
      have hr1 := r1.1
      obtain ⟨b', t', e, hb', ht'⟩ := check_pair_good (dbg' := dbg') h (merge := merge_common)
        (op := fun l r x out => do
          let (n, _, x, out) ← intersection dbg' sort m [l, r] x out
          return (n, x, out)) e1 e2 r1 r2 hb (t := t) (k := 0) (Q := IScratch.Ok)
        (by rw [em]; omega) (by
          intro l r bl br _ _ _ _ sl sr
          obtain ⟨ps, t', o', e, -, -, ht', w⟩ := C12_intersection (dbg := dbg') hsort
            (dbg' := dbg) (pad := 31) (m := m) (ps := [(ks[q.1], l), (ks[q.2], r)])
            (Z := inter ks[q.1] ks[q.2])
            (by intro p hp
                rcases List.mem_cons.mp hp with rfl | hp
                · exact ⟨vx, sl.stored⟩
                · rw [List.mem_singleton.mp hp]; exact ⟨vy, sr.stored⟩) (by simp)
            (by refine ⟨inter_sorted vx.2.1, fun v => ?_⟩
                rw [mem_inter]; simp)
            t ht b.out 0 (by rw [hb.1]; omega)
          refine ⟨t', o', ?_, ht', by rw [em]; exact w⟩
          simp only [List.map_cons, List.map_nil] at e
          rw [e, em]
          rfl)
      exact ⟨_, e, rfl, hb', ht'⟩)
  simp only at hg
  subst hg
  rw [e]
  rfl

/-- C49: `test_union` likewise, if 23 slots are to spare for each result. -/
theorem C49_union {n : Nat} {qs : List (Nat × Nat)} (h : FileAt dbg params univ lists m a)
    (hn : n < 4294967296)
    (hq : ∀ q ∈ qs, q.1 < (keptLists params lists).length ∧ q.2 < (keptLists params lists).length)
    (hroom : ∀ q ∈ qs, ∀ xs, (keptLists params lists)[q.1]? = some xs ∨
      (keptLists params lists)[q.2]? = some xs → HasRoom xs univ)
    (hcap : ∀ q ∈ qs, eitherSize (keptLists params lists) q + 23 ≤ univ)
    (x : UScratch) (hx : x.Ok) :
    test_union dbg' m a n (pairTokens qs) x = .ok ((qs.take n).length, true) := by
  obtain ⟨idx, h⟩ := h.indexed
  generalize keptLists params lists = ks at *
  unfold test_union
  rw [limit_pairs hn, h.map]
  simp only [ok_bind, h.univ]
  replace hq : ∀ q ∈ qs.take n, q.1 < ks.length ∧ q.2 < ks.length :=
    fun q hm => hq q (List.mem_of_mem_take hm)
  replace hroom := fun q (hm : q ∈ qs.take n) => hroom q (List.mem_of_mem_take hm)
  replace hcap := fun q (hm : q ∈ qs.take n) => hcap q (List.mem_of_mem_take hm)
  generalize qs.take n = qs' at *
  obtain ⟨⟨g, b, t⟩, e, hg, -⟩ := forEach_spec
    (fun _ (s : Bool × Bufs × UScratch) => s.1 = true ∧ s.2.1.Len univ ∧ s.2.2.Ok) qs' []
    (true, Bufs.init univ, x) ⟨rfl, Bufs.init_len univ, hx⟩
    (body := check_pair dbg' m idx merge_all
      (fun l r x out => pairwise_union dbg' m l r x out 0)) (by
      rintro pre q ⟨g, b, t⟩ hqm ⟨hg, hb, ht⟩
      simp only at hg hb ht
      subst hg
      obtain ⟨h1, h2⟩ := hq q hqm
      have hc := hcap q hqm
      have e1 : ks[q.1]? = some ks[q.1] := List.getElem?_eq_getElem h1
      have e2 : ks[q.2]? = some ks[q.2] := List.getElem?_eq_getElem h2
      have r1 := hroom q hqm _ (.inl e1)
      have r2 := hroom q hqm _ (.inr e2)
      have vx := h.valid _ (List.mem_of_getElem? e1)
      have vy := h.valid _ (List.mem_of_getElem? e2)
      have hs : eitherSize ks q = (uni ks[q.1] ks[q.2]).length := by
        rw [uni_length vx vy]
        unfold eitherSize; rw [e1, e2]; rfl
      rw [hs] at hc
      obtain ⟨b', t', e, hb', ht'⟩ := check_pair_good (dbg' := dbg') h (merge := merge_all)
        (op := fun l r x out => pairwise_union dbg' m l r x out 0) e1 e2 r1 r2 hb (t := t) (k := 23)
        (Q := UScratch.Ok) (by rw [merge_all_eq]; omega) (by
          intro l r bl br _ _ hbl hbr sl sr
          have hap : a + startAt ks q.1 = a + startAt ks q.2 ∨
              a + startAt ks q.1 + bl.length ≤ a + startAt ks q.2 ∨
              a + startAt ks q.2 + br.length ≤ a + startAt ks q.1 := by
            rcases Nat.lt_trichotomy q.1 q.2 with h | h | h
            · have := startAt_mono e1 h; omega
            · rw [h]; omega
            · have := startAt_mono e2 h; omega
          obtain ⟨x', o', e, hx', w⟩ := C11_union (dbg := dbg') vx vy sl sr hap
            (enumerates_uni vx vy) t ht b.out 0 (by rw [hb.1]; omega)
          rw [merge_all_eq]
          exact ⟨x', o', e, hx', w⟩)
      exact ⟨_, e, rfl, hb', ht'⟩)
  simp only at hg
  subst hg
  rw [e]
  rfl

/-! ## test_intersect_many and test_union_many -/

/-- a line of numbers -/
def lineTokens (q : List Nat) : List (Option Nat) := q.map some

theorem read_query_line (sort : List Nat → List Nat) (q : List Nat) :
    read_query sort (lineTokens q) = unique (sort q) := by
  unfold read_query lineTokens
  congr 2
  induction q with
  | nil => rfl
  | cons x q ih =>
    rw [List.map_cons, List.takeWhile_cons_of_pos (by rfl), List.filterMap_cons_some (by rfl), ih]

theorem unique_ne_nil {l : List Nat} (h : l ≠ []) : unique l ≠ [] := by
  obtain ⟨x, t, rfl⟩ := List.exists_cons_of_ne_nil h
  intro he
  have : x ∈ unique (x :: t) := mem_unique.mpr List.mem_cons_self
  rw [he] at this
  simp at this

theorem read_queries_lines {sort : List Nat → List Nat} (hsort : SortNat sort) {qs : List (List Nat)}
    (hne : ∀ q ∈ qs, q ≠ []) :
    read_queries dbg sort (qs.map lineTokens) = .ok (qs.map (fun q => unique (sort q))) := by
  induction qs with
  | nil => rfl
  | cons q qs ih =>
    have h1 := hne q List.mem_cons_self
    have h2 : unique (sort q) ≠ [] := by
      apply unique_ne_nil
      intro he
      have := (hsort q).1
      rw [he] at this
      exact h1 (List.nil_perm.mp this)
    rw [List.map_cons, read_queries, read_query_line, cassert_of (by simpa using h2), ok_bind,
      ih (fun q hq => hne q (List.mem_cons_of_mem _ hq)), ok_bind]
    rfl

/-- listing with the enumerator -/
theorem list_sequence_good {ks : List (List Nat)} {idx : SIndex} (h : Indexed dbg ks univ m a idx)
    {q : Nat} {xs : List Nat} (hx : ks[q]? = some xs) : list_sequence dbg' m idx q = .ok xs := by
  obtain ⟨s, b, hs, -, st⟩ := h.get _ _ hx dbg'
  have hv := h.valid _ (List.mem_of_getElem? hx)
  obtain ⟨e, e1, e2⟩ := C09_collect (dbg' := dbg') hv st.stored (u32 idx.univ)
    (List.replicate chunk_size 0) List.length_replicate
  unfold list_sequence
  rw [hs]
  simp only [ok_bind]
  rw [e1]
  simp only [ok_bind]
  rw [(C03_cardinality hv st.stored).1]
  simp only [ok_bind]
  rw [e2 _ (by omega)]
  simp only [ok_bind]
  rw [cassert_of (by simp), ok_bind, cassert_of (by
    rw [decide_eq_true_eq]
    exact hv.2.1.imp (fun h => Nat.le_of_lt h))]
  rfl

/-- the lists and the sequences of a query -/
theorem query_lists {ks : List (List Nat)} {idx : SIndex} (h : Indexed dbg ks univ m a idx)
    {q : List Nat} (hq : ∀ i ∈ q, i < ks.length) :
    ∃ ps : List (List Nat × SSeq), StoredAll dbg 31 m ps ∧ ps.length = q.length ∧
      ps.map Prod.fst = q.map (fun i => ks[i]?.getD []) ∧
      q.mapM (list_sequence dbg' m idx) = .ok (ps.map Prod.fst) ∧
      q.mapM (idx.get dbg' m) = .ok (ps.map Prod.snd) := by
  induction q with
  | nil => exact ⟨[], by simp [StoredAll], rfl, rfl, rfl, rfl⟩
  | cons i q ih =>
    obtain ⟨ps, h1, h2, h3, h4, h5⟩ := ih (fun j hj => hq j (List.mem_cons_of_mem _ hj))
    have hi := hq i List.mem_cons_self
    have e1 : ks[i]? = some ks[i] := List.getElem?_eq_getElem hi
    obtain ⟨s, b, hs, -, st⟩ := h.get _ _ e1 dbg'
    have hv := h.valid _ (List.mem_of_getElem? e1)
    refine ⟨(ks[i], s) :: ps, ?_, by simp [h2], by simp [h3, hi], ?_, ?_⟩
    · intro p hp
      rcases List.mem_cons.mp hp with rfl | hp
      · exact ⟨hv, st.stored⟩
      · exact h1 p hp
    · rw [List.mapM_cons, list_sequence_good h e1, h4]
      rfl
    · rw [List.mapM_cons, hs, h5]
      rfl

theorem fold_common_eq {xss : List (List Nat)} (h2 : 2 ≤ xss.length)
    (hs : ∀ xs ∈ xss, xs.Pairwise (· < ·)) :
    (fold_common xss).Pairwise (· < ·) ∧ ∀ v, v ∈ fold_common xss ↔ ∀ xs ∈ xss, v ∈ xs := by
  have key : ∀ (ls : List (List Nat)) (acc : List Nat), acc.Pairwise (· < ·) →
      (∀ xs ∈ ls, xs.Pairwise (· < ·)) → (ls.foldl merge_common acc).Pairwise (· < ·) ∧
      ∀ v, v ∈ ls.foldl merge_common acc ↔ v ∈ acc ∧ ∀ xs ∈ ls, v ∈ xs := by
    intro ls
    induction ls with
    | nil => intro acc ha _; exact ⟨ha, by simp⟩
    | cons x ls ih =>
      intro acc ha hl
      have hx := hl x List.mem_cons_self
      rw [List.foldl_cons, merge_common_eq ha hx]
      obtain ⟨h1, h2⟩ := ih (inter acc x) (inter_sorted ha)
        (fun xs h => hl xs (List.mem_cons_of_mem _ h))
      refine ⟨h1, fun v => ?_⟩
      rw [h2, mem_inter, List.forall_mem_cons, and_assoc]
  match xss, h2 with
  | x :: y :: ls, _ =>
    have hx := hs x (by simp)
    have hy := hs y (by simp)
    obtain ⟨h1, h2⟩ := key ls (inter x y) (inter_sorted hx) (fun xs h => hs xs (by simp [h]))
    rw [fold_common, merge_common_eq hx hy]
    refine ⟨h1, fun v => ?_⟩
    rw [h2, mem_inter, List.forall_mem_cons, List.forall_mem_cons, and_assoc]

theorem fold_all_eq {xss : List (List Nat)} (hs : ∀ xs ∈ xss, xs.Pairwise (· < ·)) :
    (xss.foldl merge_all []).Pairwise (· < ·) ∧
      ∀ v, v ∈ xss.foldl merge_all [] ↔ ∃ xs ∈ xss, v ∈ xs := by
  have key : ∀ (ls : List (List Nat)) (acc : List Nat), acc.Pairwise (· < ·) →
      (∀ xs ∈ ls, xs.Pairwise (· < ·)) → (ls.foldl merge_all acc).Pairwise (· < ·) ∧
      ∀ v, v ∈ ls.foldl merge_all acc ↔ v ∈ acc ∨ ∃ xs ∈ ls, v ∈ xs := by
    intro ls
    induction ls with
    | nil => intro acc ha _; exact ⟨ha, by simp⟩
    | cons x ls ih =>
      intro acc ha hl
      have hx := hl x List.mem_cons_self
      rw [List.foldl_cons, merge_all_eq]
      obtain ⟨h1, h2⟩ := ih (uni acc x) (uni_sorted ha hx)
        (fun xs h => hl xs (List.mem_cons_of_mem _ h))
      refine ⟨h1, fun v => ?_⟩
      rw [h2, mem_uni]
      simp [or_assoc]
  obtain ⟨h1, h2⟩ := key xss [] List.Pairwise.nil hs
  exact ⟨h1, fun v => by rw [h2]; simp⟩

/-- how many of the queries have two different sequences -/
def realQueries (qs : List (List Nat)) : Nat :=
  (qs.filter (fun q => q.any (fun i => q.any (fun j => decide (i < j))))).length

/-- a sorted query of at least two sequences has two different ones -/
theorem real_iff {sort : List Nat → List Nat} (hsort : SortNat sort) (q : List Nat) :
    q.any (fun i => q.any (fun j => decide (i < j))) = true ↔ 2 ≤ (unique (sort q)).length := by
  have hmem : ∀ v, v ∈ unique (sort q) ↔ v ∈ q := fun v => by
    rw [mem_unique]; exact (hsort q).1.mem_iff
  have hs := unique_sorted (hsort q).2
  generalize unique (sort q) = u at *
  simp only [List.any_eq_true, decide_eq_true_eq]
  constructor
  · rintro ⟨i, hi, j, hj, hij⟩
    rw [← hmem] at hi hj
    match u, hi, hj with
    | [x], hi, hj =>
      rw [List.mem_singleton] at hi hj
      omega
    | x :: y :: t, _, _ => simp
  · intro h2
    match u, h2, hs, hmem with
    | x :: y :: t, _, hs, hmem =>
      exact ⟨x, (hmem x).mp (by simp), y, (hmem y).mp (by simp),
        List.rel_of_pairwise_cons hs (by simp)⟩

theorem mem_sort {sort : List Nat → List Nat} (hsort : SortNat sort) {q : List Nat} {v : Nat} :
    v ∈ sort q ↔ v ∈ q := (hsort q).1.mem_iff

theorem stored_sorted {ps : List (List Nat × SSeq)} (h : StoredAll dbg 31 m ps) :
    ∀ xs ∈ ps.map Prod.fst, xs.Pairwise (· < ·) := by
  intro xs hx
  obtain ⟨p, hp, rfl⟩ := List.mem_map.mp hx
  exact (h p hp).1.2.1

/-- one query of two or more sequences whose operation is right -/
theorem check_many_good {τ : Type} {ks : List (List Nat)} {idx : SIndex}
    (h : Indexed dbg ks univ m a idx) {fold : List (List Nat) → List Nat}
    {op : List SSeq → τ → List Nat → Res (Nat × τ × List Nat)} {q : List Nat}
    (hq : ∀ i ∈ q, i < ks.length) (h2 : 2 ≤ q.length) {c : Nat} {out : List Nat} {t : τ}
    {Q : τ → Prop}
    (hop : ∀ ps, StoredAll dbg 31 m ps → ps.length = q.length →
      ps.map Prod.fst = q.map (fun i => ks[i]?.getD []) →
      ∃ t' out', op (ps.map Prod.snd) t out = .ok ((fold (ps.map Prod.fst)).length, t', out') ∧ Q t' ∧
        Wrote out 0 (fold (ps.map Prod.fst)) 0 out') :
    ∃ out' t', check_many dbg' m idx fold op q ((c, true), out, t) = .ok ((c + 1, true), out', t') ∧
      out'.length = out.length ∧ Q t' := by
  obtain ⟨ps, h1, hl, hf, e1, e2⟩ := query_lists (dbg' := dbg') h hq
  obtain ⟨t', o', eo, ht, w⟩ := hop ps h1 hl hf
  refine ⟨o', t', ?_, w.1, ht⟩
  unfold check_many
  rw [if_neg (by omega), e1]
  simp only [ok_bind]
  rw [e2]
  simp only [ok_bind]
  rw [eo]
  simp only [ok_bind, beq_self_eq_true, Bool.and_self]
  rw [compare_results_good (fun _ _ => rfl)
    (fun i hi => by have := w.2.2.1 i hi; rwa [Nat.zero_add] at this)]
  rfl

/-- the queries as the programs read them, and how many are run -/
theorem queries_run {τ : Type} {nsort : List Nat → List Nat} (hns : SortNat nsort)
    {body : List Nat → (Nat × Bool) × List Nat × τ → Res ((Nat × Bool) × List Nat × τ)}
    {Q : τ → Prop} {qs : List (List Nat)} {t : τ} (ht : Q t)
    (hsmall : ∀ q s, q.length < 2 → body q s = .ok s)
    (hbody : ∀ q ∈ qs, 2 ≤ (unique (nsort q)).length → ∀ c out t, out.length = univ → Q t →
      ∃ out' t', body (unique (nsort q)) ((c, true), out, t) = .ok ((c + 1, true), out', t') ∧
        out'.length = out.length ∧ Q t') :
    ∃ s, forEach body (qs.map (fun q => unique (nsort q)))
      ((0, true), List.replicate univ 0, t) = .ok ((realQueries qs, true), s) := by
  have key : ∀ (qs' : List (List Nat)) (c : Nat) (out : List Nat) (t : τ), (∀ q ∈ qs', q ∈ qs) →
      out.length = univ → Q t →
      ∃ s, forEach body (qs'.map (fun q => unique (nsort q))) ((c, true), out, t)
        = .ok ((c + realQueries qs', true), s) := by
    intro qs'
    induction qs' with
    | nil => intro c out t _ _ _; exact ⟨_, rfl⟩
    | cons q qs' ih =>
      intro c out t hm ho ht
      have hm' : ∀ q ∈ qs', q ∈ qs := fun q h => hm q (List.mem_cons_of_mem _ h)
      have hr := real_iff hns q
      rw [List.map_cons, forEach]
      unfold realQueries
      by_cases h2 : 2 ≤ (unique (nsort q)).length
      · obtain ⟨out', t', e, hl, ht'⟩ := hbody q (hm q List.mem_cons_self) h2 c out t ho ht
        obtain ⟨s, e'⟩ := ih (c + 1) out' t' hm' (hl.trans ho) ht'
        refine ⟨s, ?_⟩
        rw [e, ok_bind, e', List.filter_cons_of_pos (by exact hr.mpr h2), List.length_cons]
        unfold realQueries
        rw [Nat.add_assoc, Nat.add_comm 1]
      · obtain ⟨s, e'⟩ := ih c out t hm' ho ht
        refine ⟨s, ?_⟩
        rw [hsmall _ _ (by omega), ok_bind, e', List.filter_cons_of_neg (by exact fun h => h2 (hr.mp h))]
        rfl
  obtain ⟨s, e⟩ := key qs 0 (List.replicate univ 0) t (fun _ h => h) List.length_replicate ht
  exact ⟨s, by rw [e, Nat.zero_add]⟩

/-- the lists a query asks for -/
def asked (ks : List (List Nat)) (q : List Nat) : List (List Nat) := q.map (fun i => ks[i]?.getD [])

theorem mem_asked {sort : List Nat → List Nat} (hsort : SortNat sort) {ks : List (List Nat)}
    {q : List Nat} {xs : List Nat} :
    xs ∈ asked ks (unique (sort q)) ↔ xs ∈ asked ks q := by
  unfold asked
  rw [List.mem_map, List.mem_map]
  have : ∀ v, v ∈ unique (sort q) ↔ v ∈ q := fun v => by
    rw [mem_unique]; exact (hsort q).1.mem_iff
  simp only [this]

/-- C49: `test_intersect_many` reports that everything is good.  A query that names a single sequence,
however often, is skipped. -/
theorem C49_intersect_many {sort : (SSeq → Nat) → List SSeq → List SSeq} (hsort : SortOk sort)
    {nsort : List Nat → List Nat} (hns : SortNat nsort) {n : Nat} {qs : List (List Nat)}
    (h : FileAt dbg params univ lists m a) (hne : ∀ q ∈ qs, q ≠ [])
    (hq : ∀ q ∈ qs, ∀ i ∈ q, i < (keptLists params lists).length)
    (hcap : ∀ q ∈ qs, ∃ xs ∈ asked (keptLists params lists) q, xs.length ≤ univ)
    (x : IScratch) (hx : x.Ok) :
    test_intersect_many dbg' sort nsort m a n (qs.map lineTokens) x
      = .ok (realQueries (qs.take n), true) := by
  obtain ⟨idx, h⟩ := h.indexed
  generalize keptLists params lists = ks at *
  unfold test_intersect_many
  rw [← List.map_take, read_queries_lines hns (fun q hm => hne q (List.mem_of_mem_take hm)), h.map]
  simp only [ok_bind, h.univ]
  obtain ⟨s, e⟩ := queries_run (univ := univ) hns (Q := IScratch.Ok) (qs := qs.take n) (t := x) hx
    (body := check_many dbg' m idx fold_common (fun ss x out => do
      let (n, _, x, out) ← intersection dbg' sort m ss x out
      return (n, x, out)))
    (fun q s hs => by unfold check_many; rw [if_pos hs]) (by
      intro q hm h2 c out t ho ht
      have hm' := List.mem_of_mem_take hm
      refine check_many_good h (fun i hi => hq q hm' i ?_) h2 ?_
      · rw [mem_unique] at hi
        exact (mem_sort hns).mp hi
      intro ps hps hl hf
      have hne' : ps ≠ [] := by intro e; rw [e] at hl; simp at hl; omega
      obtain ⟨hs, hmem⟩ := fold_common_eq (xss := ps.map Prod.fst)
        (by rw [List.length_map]; omega) (stored_sorted hps)
      obtain ⟨xs, hxs, hcx⟩ := hcap q hm'
      have hxs' : xs ∈ ps.map Prod.fst := by rw [hf]; exact (mem_asked hns).mpr hxs
      have hle : (fold_common (ps.map Prod.fst)).length ≤ univ := by
        have e : fold_common (ps.map Prod.fst) = inter (fold_common (ps.map Prod.fst)) xs := by
          apply sorted_ext hs (inter_sorted hs)
          intro v
          rw [mem_inter]
          exact ⟨fun hv => ⟨hv, (hmem v).mp hv xs hxs'⟩, And.left⟩
        have hxss := stored_sorted hps xs hxs'
        rw [e, inter_comm hs hxss]
        have := inter_length_le xs (fold_common (ps.map Prod.fst))
        omega
      obtain ⟨ps', t', o', e, -, -, ht', w⟩ := C12_intersection (dbg := dbg') hsort hps hne'
        (Z := fold_common (ps.map Prod.fst))
        ⟨hs, fun v => by rw [hmem, List.forall_mem_map]⟩ t ht out 0 (by omega)
      refine ⟨t', o', ?_, ht', w⟩
      rw [e]
      rfl)
  rw [e]
  rfl

/-- C49: `test_union_many` likewise, if `universe()` slots hold each result. -/
theorem C49_union_many {nsort : List Nat → List Nat} (hns : SortNat nsort) {n : Nat}
    {qs : List (List Nat)} (h : FileAt dbg params univ lists m a) (hne : ∀ q ∈ qs, q ≠ [])
    (hq : ∀ q ∈ qs, ∀ i ∈ q, i < (keptLists params lists).length)
    (hcap : ∀ q ∈ qs, ∀ Z, Enumerates Z (fun v => ∃ xs ∈ asked (keptLists params lists) q, v ∈ xs) →
      Z.length ≤ univ)
    (x : MScratch) (hx : x.Ok) :
    test_union_many dbg' nsort m a n (qs.map lineTokens) x
      = .ok (realQueries (qs.take n), true) := by
  obtain ⟨idx, h⟩ := h.indexed
  generalize keptLists params lists = ks at *
  unfold test_union_many
  rw [← List.map_take, read_queries_lines hns (fun q hm => hne q (List.mem_of_mem_take hm)), h.map]
  simp only [ok_bind, h.univ]
  obtain ⟨s, e⟩ := queries_run (univ := univ) hns (Q := MScratch.Ok) (qs := qs.take n) (t := x) hx
    (body := check_many dbg' m idx (fun ls => ls.foldl merge_all [])
      (fun ss x out => union_many dbg' m ss x out))
    (fun q s hs => by unfold check_many; rw [if_pos hs]) (by
      intro q hm h2 c out t ho ht
      have hm' := List.mem_of_mem_take hm
      refine check_many_good h (fun i hi => hq q hm' i ?_) h2 ?_
      · rw [mem_unique] at hi
        exact (mem_sort hns).mp hi
      intro ps hps hl hf
      have hne' : ps ≠ [] := by intro e; rw [e] at hl; simp at hl; omega
      obtain ⟨hs, hmem⟩ := fold_all_eq (stored_sorted hps)
      have hle := hcap q hm' _ ⟨hs, fun v => by
        rw [hmem, hf]
        constructor
        · rintro ⟨xs, h1, h2⟩; exact ⟨xs, (mem_asked hns).mp h1, h2⟩
        · rintro ⟨xs, h1, h2⟩; exact ⟨xs, (mem_asked hns).mpr h1, h2⟩⟩
      obtain ⟨t', o', e, ht', w⟩ := C13_union (dbg := dbg') hps hne'
        (Z := (ps.map Prod.fst).foldl merge_all [])
        ⟨hs, fun v => by
          rw [hmem]
          constructor
          · rintro ⟨xs, h1, h2⟩
            obtain ⟨p, hp, rfl⟩ := List.mem_map.mp h1
            exact ⟨p, hp, h2⟩
          · rintro ⟨p, hp, h2⟩
            exact ⟨p.1, List.mem_map.mpr ⟨p, hp, rfl⟩, h2⟩⟩ t ht out 0 (by omega)
      exact ⟨t', o', e, ht', w⟩)
  rw [e]
  rfl

end Sliced
