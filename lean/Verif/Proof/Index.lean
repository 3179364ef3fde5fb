import Verif.Model.Index
import Verif.SpecIndex
import Verif.Props.StoredMany
import Verif.Proof.StatsDelta
/-! # The collection builder and the saved index -/
namespace Sliced

theorem pass_iff {params : Params} {xs : List Nat} {v : Nat} (hn : xs ≠ [] → xs.getLast? = some v)
    (he : xs = [] → v = 0) : pass params xs.length v = true ↔ Kept params xs := by
  unfold pass Kept
  rcases xs with _ | ⟨x, t⟩
  · simp only [ne_eq, not_true_eq_false, false_and, iff_false, he rfl, List.length_nil, beq_self_eq_true,
      Bool.and_self, Bool.not_true, Bool.false_and]
    cases params.denser <;> simp
  · have hl := hn (List.cons_ne_nil x t)
    rw [hl]
    cases params.denser with
    | none => simp
    | some f =>
      have : (List.length (x :: t) == 0) = false := by simp
      simp only [this, Bool.false_and, Bool.not_false, Bool.true_and, Option.getD_some]
      by_cases hf : f (x :: t).length v = true
      · simp [hf]
      · simp [hf]

/-- Where each further sequence ends when the first of `xss` begins at `s`. -/
def endsFrom (s : Nat) : List (List Nat) → List Nat
  | [] => []
  | xs :: xss => (s + (seqBytes (chunksOf xs)).length)
      :: endsFrom (s + (seqBytes (chunksOf xs)).length) xss

def allBytes (xss : List (List Nat)) : List UInt8 := xss.flatMap (fun xs => seqBytes (chunksOf xs))

theorem endsFrom_length (s : Nat) (xss : List (List Nat)) : (endsFrom s xss).length = xss.length := by
  induction xss generalizing s with
  | nil => rfl
  | cons xs xss ih => simp only [endsFrom, List.length_cons, ih]

/-- what `build_loop` adds to the statistics -/
structure IdxStats (st0 st : Stats) (xss : List (List Nat)) : Prop where
  sequences : st.sequences = st0.sequences + xss.length
  integers : st.integers = st0.integers + (xss.map List.length).sum
  chunks : st.chunks = st0.chunks + (xss.map (fun xs => xs.getLast?.getD 0 / 65536 + 1)).sum
  balanced : st0.Balanced → st.Balanced
  raw : st.raw = st0.raw + 8 * (allBytes xss).length
  arrays : st.ArraysOk
  hist : ∀ n, 1 ≤ n → n < 31 → st.sparse_blocks_cardinalities[n]?
    = st0.sparse_blocks_cardinalities[n]?.map
        (· + (xss.map (fun xs => lsum (Chk.blk (Blk.hist n)) (chunksOf xs))).sum)
  nb : ∀ n, st.num_blocks_in_chunks[n]? = st0.num_blocks_in_chunks[n]?.map
    (· + (xss.map (fun xs => lsum (Chk.histBlocks n) (chunksOf xs))).sum)
  ni : ∀ n, st.num_integers[n]? = st0.num_integers[n]?.map
    (· + (xss.map (fun xs => lsum (Chk.histInts n) (chunksOf xs))).sum)
  counters : ∀ p ∈ counterSums, p.1 st = p.1 st0 + (xss.map p.2).sum

theorem idxStats_nil {st : Stats} (h : st.ArraysOk) : IdxStats st st [] :=
  ⟨rfl, rfl, rfl, id, rfl, h, fun n _ _ => by simp, fun n => by simp, fun n => by simp, fun _ _ => rfl⟩

theorem map_add_map (o : Option Nat) (a b : Nat) :
    (o.map (· + a)).map (· + b) = o.map (· + (a + b)) := by
  cases o <;> simp [Nat.add_assoc]

theorem IdxStats.cons {st0 st1 st : Stats} {xs : List Nat} {xss : List (List Nat)} {k : Nat}
    (hv : Valid xs)
    (h1 : SeqStats st0 st1 (chunksOf xs) xs.length k)
    (hk : ∃ u ∈ xs, (∀ x ∈ xs, x ≤ u) ∧ k = u / 65536 + 1)
    (h : IdxStats st1 st xss) : IdxStats st0 st (xs :: xss) := by
  obtain ⟨d1, d2, d3, d4, d5, d6⟩ := h1.delta (by rw [← seqElems_length, seqElems_chunksOf hv])
  obtain ⟨u, hu, hum, rfl⟩ := hk
  obtain ⟨w, hw, hwm, hwx⟩ := getLast_max (lt_le hv.2.1) hv.1
  have : u = w := Nat.le_antisymm (hwx u hu) (hum w hwm)
  subst this
  have := h.sequences; have := h.integers; have := h.chunks; have hr := h.raw
  refine ⟨by rw [List.length_cons]; omega, by rw [List.map_cons, List.sum_cons]; omega, ?_,
    fun hb => h.balanced (d4 hb), ?_, h.arrays, ?_, ?_, ?_, ?_⟩
  · rw [List.map_cons, List.sum_cons, hw]; simp only [Option.getD_some]; omega
  · unfold allBytes at hr ⊢
    rw [List.flatMap_cons, List.length_append]; omega
  · intro n n1 n2
    have hi : st1.sparse_blocks_cardinalities[n]? = _ := h1.inv.hist n n1 n2
    rw [h.hist n n1 n2, hi, map_add_map, List.map_cons, List.sum_cons]
  · intro n
    have hi : st1.num_blocks_in_chunks[n]? = _ := h1.inv.nb n
    rw [h.nb n, hi, map_add_map, List.map_cons, List.sum_cons]
  · intro n
    have hi : st1.num_integers[n]? = _ := h1.inv.ni n
    rw [h.ni n, hi, map_add_map, List.map_cons, List.sum_cons]
  · intro p hp
    rw [h.counters p hp, h1.counters p hp, List.map_cons, List.sum_cons, Nat.add_assoc]

theorem build_loop_spec {dbg : Bool} {params : Params} {pre : List Nat} {lists : List (List Nat)}
    (hlen : ∀ xs ∈ lists, xs.length < 4294967295)
    (hval : ∀ xs ∈ lists, Kept params xs → Valid xs) {fuel : Nat} (hf : lists.length < fuel)
    {st : IdxState} (hb : st.block = []) (ha : st.stats.ArraysOk) :
    ∃ st', build_loop dbg params (pre ++ lists.flatMap (fun xs => xs.length :: xs)) fuel pre.length st
        = .ok st' ∧
      st'.offsets = st.offsets ++ endsFrom st.sequences.length (keptLists params lists) ∧
      st'.sequences = st.sequences ++ allBytes (keptLists params lists) ∧
      IdxStats st.stats st'.stats (keptLists params lists) := by
  induction lists generalizing pre fuel st with
  | nil =>
    obtain ⟨f, rfl⟩ : ∃ f, fuel = f + 1 := ⟨fuel - 1, by simp only [List.length_nil] at hf; omega⟩
    refine ⟨st, ?_, ?_, ?_, idxStats_nil ha⟩
    · unfold build_loop
      rw [if_neg]
      simp
    · simp [keptLists, endsFrom]
    · simp [keptLists, allBytes]
  | cons xs lists ih =>
    obtain ⟨f, rfl⟩ : ∃ f, fuel = f + 1 := ⟨fuel - 1, by simp only [List.length_cons] at hf; omega⟩
    have hl := hlen xs (List.mem_cons_self ..)
    have e1 : pre ++ (xs :: lists).flatMap (fun xs => xs.length :: xs)
        = (pre ++ (xs.length :: xs)) ++ lists.flatMap (fun xs => xs.length :: xs) := by
      rw [List.flatMap_cons, List.append_assoc]
    have e2 : pre.length + u32 (xs.length + 1) = (pre ++ (xs.length :: xs)).length := by
      unfold u32
      rw [Nat.mod_eq_of_lt (by omega), List.length_append, List.length_cons]
    rw [e1]
    generalize hd : lists.flatMap (fun xs => xs.length :: xs) = tl at *
    have hn : rdv ((pre ++ (xs.length :: xs)) ++ tl) pre.length = .ok xs.length := by
      apply rdv_of
      simp
    obtain ⟨v, hu, hv1, hv2⟩ : ∃ v, rdv ((pre ++ (xs.length :: xs)) ++ tl) (pre.length + xs.length) = .ok v
        ∧ (xs ≠ [] → xs.getLast? = some v) ∧ (xs = [] → v = 0) := by
      rcases xs with _ | ⟨x, t⟩
      · refine ⟨0, ?_, by simp, fun _ => rfl⟩
        apply rdv_of
        simp
      · refine ⟨(x :: t).getLast (by simp), ?_, fun _ => List.getLast?_eq_some_getLast _, by simp⟩
        apply rdv_of
        rw [List.append_assoc, List.getElem?_append_right (by omega), Nat.add_sub_cancel_left,
          List.getElem?_append_left (by simp), List.length_cons, List.getElem?_cons_succ,
          List.getLast_eq_getElem]
        simp
    have hp := pass_iff (params := params) hv1 hv2
    have hsl : ((pre ++ (xs.length :: xs) ++ tl).drop (pre.length + 1)).take xs.length = xs := by
      rw [List.append_assoc, List.drop_append, List.drop_eq_nil_of_le (by omega)]
      simp
    have ih' := fun (st : IdxState) => ih (pre := pre ++ (xs.length :: xs))
      (fun y hy => hlen y (List.mem_cons_of_mem _ hy)) (fun y hy => hval y (List.mem_cons_of_mem _ hy))
      (fuel := f) (by simp only [List.length_cons] at hf; omega) (st := st)
    unfold build_loop
    rw [if_pos (by simp only [List.length_append, List.length_cons]; omega), hn]
    simp only [ok_bind]
    rw [hu]
    simp only [ok_bind]
    by_cases hk : Kept params xs
    · have hvx := hval xs (List.mem_cons_self ..) hk
      rw [if_pos (hp.mpr hk), hsl, hb]
      obtain ⟨s1, k, es, hss, hkk⟩ := encode_sequence_spec (dbg := dbg) hvx ha (out := st.sequences)
      rw [es]
      simp only [ok_bind]
      obtain ⟨st', g1, g2, g3, g4⟩ := ih'
        (IdxState.mk (st.offsets ++ [(st.sequences ++ seqBytes (chunksOf xs)).length])
          (st.sequences ++ seqBytes (chunksOf xs)) [] s1) rfl
        (hss.delta (by rw [← seqElems_length, seqElems_chunksOf hvx])).2.2.2.2.2
      have hkl : keptLists params (xs :: lists) = xs :: keptLists params lists := by
        unfold keptLists
        rw [List.filter_cons_of_pos (by simpa using hk)]
      rw [e2, hkl]
      refine ⟨st', g1, ?_, ?_, g4.cons hvx hss hkk⟩
      · rw [g2]
        simp only [endsFrom, List.length_append, List.append_assoc, List.singleton_append]
      · rw [g3]
        simp only [allBytes, List.flatMap_cons, List.append_assoc]
    · rw [if_neg (fun h => hk (hp.mp h)), e2]
      have hkl : keptLists params (xs :: lists) = keptLists params lists := by
        unfold keptLists
        rw [List.filter_cons_of_neg (by simpa using hk)]
      rw [hkl]
      exact ih' st hb ha

/-- Where each sequence begins. -/
def startsOf (xss : List (List Nat)) : List Nat := (0 :: endsFrom 0 xss).dropLast

theorem cons_dropLast (s : Nat) (xs : List Nat) (xss : List (List Nat)) :
    (s :: endsFrom s (xs :: xss)).dropLast
      = s :: ((s + (seqBytes (chunksOf xs)).length)
        :: endsFrom (s + (seqBytes (chunksOf xs)).length) xss).dropLast := rfl

theorem startsFrom_length (s : Nat) (xss : List (List Nat)) :
    ((s :: endsFrom s xss).dropLast).length = xss.length := by
  rw [List.length_dropLast, List.length_cons, endsFrom_length]; rfl

theorem startsFrom_get (s : Nat) (xss : List (List Nat)) {i : Nat} (hi : i < xss.length) :
    ((s :: endsFrom s xss).dropLast)[i]? = some (s + (allBytes (xss.take i)).length) := by
  induction xss generalizing s i with
  | nil => simp at hi
  | cons xs xss ih =>
    rw [cons_dropLast]
    cases i with
    | zero => simp [allBytes]
    | succ i =>
      rw [List.getElem?_cons_succ, ih _ (by simpa using hi)]
      simp only [allBytes, List.take_succ_cons, List.flatMap_cons, List.length_append]
      rw [Nat.add_assoc]

theorem build_index_spec {dbg : Bool} {params : Params} {univ : Nat} {lists : List (List Nat)}
    (hg : GoodCollection params univ lists) :
    ∃ st, build_index dbg params (collection univ lists)
        = .ok (univ :: startsOf (keptLists params lists), allBytes (keptLists params lists), st) ∧
      ∃ st1, IdxStats {} st1 (keptLists params lists) ∧
        st = { st1.finish with bits := st1.finish.bits + ((keptLists params lists).length + 1) * 64 } := by
  obtain ⟨st', h1, h2, h3, h4⟩ := build_loop_spec (dbg := dbg) (params := params) (pre := [1, univ])
    hg.2.1 hg.2.2 (fuel := (collection univ lists).length + 1) (by
      unfold collection
      simp only [List.length_cons]
      have : lists.length ≤ (lists.flatMap (fun xs => xs.length :: xs)).length := by
        generalize lists = ls
        induction ls with
        | nil => simp
        | cons a l ih => simp only [List.flatMap_cons, List.length_append, List.length_cons]; omega
      omega)
    (st := { offsets := [univ, 0], sequences := [], block := [], stats := {} }) rfl arraysOk_default
  simp only [List.nil_append, List.length_nil, List.cons_append] at h1 h2 h3
  have ho : st'.offsets.dropLast = univ :: startsOf (keptLists params lists) := by
    rw [h2]; rfl
  refine ⟨_, ?_, st'.stats, h4, rfl⟩
  unfold build_index
  rw [show rdv (collection univ lists) 0 = .ok 1 from rfl]
  simp only [ok_bind]
  rw [cassert_of (by rfl), show rdv (collection univ lists) 1 = .ok univ from rfl]
  simp only [ok_bind]
  have h1' : build_loop dbg params (collection univ lists) ((collection univ lists).length + 1) 2
    { offsets := [univ, 0], sequences := [], block := [], stats := {} } = .ok st' := h1
  rw [h1']
  simp only [ok_bind]
  rw [ho, h3]
  rw [List.length_cons, startsOf, startsFrom_length]
  rfl

end Sliced
