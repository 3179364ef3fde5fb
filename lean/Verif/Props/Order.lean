import Verif.Props.Counters
/-!
# The statistics and the order of the lists of a collection (C60)

The statistics do not depend on the order of the lists, on the universe in the first record, or on the lists
that are left out; those of two collections in one file add up, except that the fixed part of the file is
there once.
-/
namespace Sliced

variable {dbg dbg' dbg'' : Bool} {params : Params} {univ univ' univ'' : Nat}
  {lists lists' : List (List Nat)} {offs offs' offs'' : List Nat} {seqs seqs' seqs'' : List UInt8}
  {st st' st'' : Stats}

theorem sum_map_perm {α : Type} {L L' : List α} (f : α → Nat) (h : L.Perm L') :
    (L.map f).sum = (L'.map f).sum := by
  induction h with
  | nil => rfl
  | cons x _ ih => rw [List.map_cons, List.map_cons, List.sum_cons, List.sum_cons, ih]
  | swap x y l =>
    rw [List.map_cons, List.map_cons, List.map_cons, List.map_cons, List.sum_cons, List.sum_cons,
      List.sum_cons, List.sum_cons]
    omega
  | trans _ _ ih1 ih2 => exact ih1.trans ih2

theorem statsOf_perm {ks ks' : List (List Nat)} (h : ks.Perm ks') (r : Nat) :
    statsOf ks r = statsOf ks' r := by
  have hs : ∀ f : List Nat → Nat, (ks.map f).sum = (ks'.map f).sum := fun f => sum_map_perm f h
  unfold statsOf
  simp only [hs, h.length_eq]

/-- C60: two collections with the same lists that are kept, in any order: the statistics are the same, and
the files are as long. -/
theorem C60_order (hg : GoodCollection params univ lists) (hg' : GoodCollection params univ' lists')
    (hp : (keptLists params lists).Perm (keptLists params lists'))
    (hb : build_index dbg params (collection univ lists) = .ok (offs, seqs, st))
    (hb' : build_index dbg' params (collection univ' lists') = .ok (offs', seqs', st')) :
    st = st' ∧ (save_index offs seqs).length = (save_index offs' seqs').length := by
  have h : st = st' := by
    rw [C60_collection hg hb, C60_collection hg' hb', hp.length_eq]
    exact statsOf_perm hp _
  have h1 := C20_index_bits hg hb
  have h2 := C20_index_bits hg' hb'
  rw [h] at h1
  exact ⟨h, by omega⟩

/-- C60: a collection in another order. -/
theorem C60_permuted (hg : GoodCollection params univ lists) (hp : lists.Perm lists')
    (hb : build_index dbg params (collection univ lists) = .ok (offs, seqs, st)) :
    ∃ offs' seqs', build_index dbg' params (collection univ lists') = .ok (offs', seqs', st) := by
  have hg' : GoodCollection params univ lists' :=
    ⟨hg.1, fun xs hx => hg.2.1 xs (hp.mem_iff.mpr hx), fun xs hx => hg.2.2 xs (hp.mem_iff.mpr hx)⟩
  obtain ⟨offs', seqs', st', h, -⟩ := C18_exists (dbg := dbg') hg'
  have := (C60_order hg hg' (hp.filter _) hb h).1
  exact ⟨offs', seqs', by rw [this]; exact h⟩

/-- all counters and histograms but the number of bits -/
def Stats.counters (st : Stats) : List Nat :=
  [st.sequences, st.integers, st.integers_in_sparse_chunks, st.integers_in_dense_chunks,
    st.integers_in_full_chunks, st.integers_in_sparse_blocks, st.integers_in_dense_blocks, st.chunks,
    st.empty_chunks, st.sparse_chunks, st.very_sparse_chunks, st.dense_chunks, st.full_chunks, st.blocks,
    st.empty_blocks, st.sparse_blocks, st.dense_blocks, st.chunks_header_bits, st.blocks_header_bits,
    st.dense_chunks_bits, st.dense_blocks_bits, st.sparse_blocks_bits]
    ++ st.sparse_blocks_cardinalities ++ st.num_blocks_in_chunks ++ st.num_integers

theorem zip_map_add {L : List Nat} (f g : Nat → Nat) :
    List.zipWith (· + ·) (L.map f) (L.map g) = L.map (fun i => f i + g i) := by
  induction L with
  | nil => rfl
  | cons a L ih => rw [List.map_cons, List.map_cons, List.zipWith_cons_cons, ih, List.map_cons]

theorem statsOf_append (K K' : List (List Nat)) (r r' r'' : Nat) :
    (statsOf (K ++ K') r).counters
      = List.zipWith (· + ·) (statsOf K r').counters (statsOf K' r'').counters := by
  unfold Stats.counters
  rw [List.zipWith_append (by
      simp only [statsOf, List.length_append, List.length_cons, List.length_nil, List.length_map]),
    List.zipWith_append (by
      simp only [statsOf, List.length_append, List.length_cons, List.length_nil, List.length_map]),
    List.zipWith_append (by
      simp only [List.length_cons, List.length_nil])]
  congr 1
  · congr 1
    · congr 1
      · simp only [statsOf, List.length_append, List.map_append, List.sum_append, List.zipWith_cons_cons,
          List.zipWith_nil_left]
      · simp only [statsOf, List.map_append, List.sum_append, List.zipWith_cons_cons, zip_map_add]
    · simp only [statsOf, List.map_append, List.sum_append, zip_map_add]
  · simp only [statsOf, List.map_append, List.sum_append, zip_map_add]

/-- C60: the lists of two collections in one: every counter and every entry of a histogram is the sum of
the two, and the bits are the sum without the 192 bits that both have. -/
theorem C60_append (hg : GoodCollection params univ lists) (hg' : GoodCollection params univ' lists')
    (hu : univ'' < 4294967296)
    (hb : build_index dbg params (collection univ lists) = .ok (offs, seqs, st))
    (hb' : build_index dbg' params (collection univ' lists') = .ok (offs', seqs', st')) :
    ∃ offs'' seqs'' st'',
      build_index dbg'' params (collection univ'' (lists ++ lists')) = .ok (offs'', seqs'', st'') ∧
      st''.counters = List.zipWith (· + ·) st.counters st'.counters ∧
      st''.bits + 192 = st.bits + st'.bits := by
  have hg'' : GoodCollection params univ'' (lists ++ lists') := by
    refine ⟨hu, fun xs hx => ?_, fun xs hx => ?_⟩
    · rcases List.mem_append.mp hx with h | h
      · exact hg.2.1 xs h
      · exact hg'.2.1 xs h
    · rcases List.mem_append.mp hx with h | h
      · exact hg.2.2 xs h
      · exact hg'.2.2 xs h
  obtain ⟨offs'', seqs'', st'', h, -⟩ := C18_exists (dbg := dbg'') hg''
  have hk : keptLists params (lists ++ lists') = keptLists params lists ++ keptLists params lists' :=
    List.filter_append ..
  refine ⟨offs'', seqs'', st'', h, ?_, ?_⟩
  · rw [C60_collection hg'' h, C60_collection hg hb, C60_collection hg' hb', hk]
    exact statsOf_append ..
  · rw [C60_collection hg'' h, C60_collection hg hb, C60_collection hg' hb', hk]
    simp only [statsOf, List.map_append, List.sum_append, List.length_append]
    omega

/-! ## Examples -/

/-- the collection of the examples, with its lists the other way round -/
example : ∃ offs seqs st offs' seqs',
    build_index true { size := 1 } (collection 80000 sampleColl) = .ok (offs, seqs, st) ∧
    build_index false { size := 1 } (collection 80000 [[3, 5, 300, 70000], [7], [], [3, 5, 300, 70000]])
      = .ok (offs', seqs', st) := by
  obtain ⟨offs, seqs, st, h, -⟩ := C18_exists (dbg := true) sampleColl_good
  obtain ⟨offs', seqs', h'⟩ := C60_permuted (dbg' := false) sampleColl_good
    (lists' := [[3, 5, 300, 70000], [7], [], [3, 5, 300, 70000]])
    (List.Perm.cons _ (List.Perm.swap _ _ _)) h
  exact ⟨offs, seqs, st, offs', seqs', h, h'⟩

/-- and twice after itself: twice as many of everything -/
example : ∃ offs seqs st, build_index true { size := 1 } (collection 80000 (sampleColl ++ sampleColl))
    = .ok (offs, seqs, st) ∧ st.sequences = 4 ∧ st.integers = 16 := by
  obtain ⟨offs, seqs, st, h, -⟩ := C18_exists (dbg := true) sampleColl_good
  obtain ⟨o, q, st'', h1, h2, -⟩ := C60_append (dbg'' := true) (univ'' := 80000) sampleColl_good sampleColl_good
    (by omega) h h
  obtain ⟨c1, c2, -⟩ := C21_collection_counters sampleColl_good h
  unfold Stats.counters at h2
  simp only [List.cons_append, List.zipWith_cons_cons, List.cons.injEq] at h2
  obtain ⟨e1, e2, -⟩ := h2
  have hk : keptLists { size := 1 } sampleColl = [[3, 5, 300, 70000], [3, 5, 300, 70000]] := by
    decide
  rw [hk] at c1 c2
  exact ⟨o, q, st'', h1, by rw [e1, c1]; rfl, by rw [e2, c2]; rfl⟩

end Sliced
