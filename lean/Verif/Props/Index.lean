import Verif.Proof.Index
import Verif.Props.Size
import Verif.Props.SetOps
/-!
# Collections and the saved index

C18, C19, C29 and the collection parts of C17, C20, C21.
`dbg` is the mode the index was built in, `dbg'` the one it is used in.
-/
namespace Sliced

variable {dbg dbg' : Bool} {params : Params} {univ a c i : Nat} {lists : List (List Nat)} {m : Mem}
  {xs offs : List Nat} {seqs : List UInt8} {st : Stats}

/-! ## C19: the filter -/

/-- C19: the filter of the builder, applied to the length and the last element of a non-empty list,
is the disjunction `Kept`. -/
theorem C19_filter (hne : xs ≠ []) :
    pass params xs.length (xs.getLast?.getD 0) = true ↔ Kept params xs := by
  refine pass_iff (fun _ => ?_) (fun h => absurd h hne)
  rw [List.getLast?_eq_some_getLast hne]; rfl

example : pass { size := 5 } 6 100 = true ↔ Kept { size := 5 } [1, 2, 3, 4, 50, 100] :=
  C19_filter (xs := [1, 2, 3, 4, 50, 100]) (by simp)

/-- C19: with the default size threshold every non-empty list is kept, whatever the density. -/
theorem C19_default_keeps_all (h0 : params.size = 0) (hne : xs ≠ []) :
    pass params xs.length (xs.getLast?.getD 0) = true := by
  rw [C19_filter hne]
  refine ⟨hne, Or.inr ?_⟩
  rw [h0]; exact List.length_pos_iff.mpr hne

example : pass { denser := some (fun _ _ => false) } 1 70000 = true :=
  C19_default_keeps_all (xs := [70000]) rfl (by simp)

/-- C19: the same for a collection: all its non-empty lists are kept. -/
theorem C19_default_collection (h0 : params.size = 0) :
    keptLists params lists = lists.filter (fun xs => !xs.isEmpty) := by
  refine List.filter_congr (fun xs _ => ?_)
  cases xs with
  | nil => simp [Kept]
  | cons x t => simp [Kept, h0]

/-- C19: the density test alone.  `double(n) / universe` is the quotient rounded by some monotone
`rnd` that leaves the threshold `d` as it is, and infinite for `universe == 0`; a list that is kept for
its density and not for its length really has `n / universe > d`, or its largest element is 0. -/
theorem C19_density {rnd : Rat → Rat} {d : Rat} (hmono : ∀ x y, x ≤ y → rnd x ≤ rnd y)
    (hd : rnd d = d)
    (hp : params.denser = some (fun (n u : Nat) => u == 0 || decide (d < rnd ((n : Rat) / (u : Rat)))))
    (hs : xs.length ≤ params.size)
    (h : pass params xs.length (xs.getLast?.getD 0) = true) :
    xs.getLast? = some 0 ∨ d < (xs.length : Rat) / ((xs.getLast?.getD 0 : Nat) : Rat) := by
  by_cases hne : xs = []
  · subst hne
    unfold pass at h
    rw [hp] at h
    simp at h
  · rcases (C19_filter hne).mp h with ⟨-, ⟨f, hf, hk⟩ | hk⟩
    · rw [hp] at hf
      cases hf
      rcases (Bool.or_eq_true _ _).mp hk with hk | hk
      · left
        rw [List.getLast?_eq_some_getLast hne] at hk ⊢
        rw [Option.getD_some, beq_iff_eq] at hk
        rw [hk]
      · right
        have hk : d < rnd _ := of_decide_eq_true hk
        apply Rat.not_le.mp
        intro hle
        have := hmono _ _ hle
        rw [hd] at this
        exact absurd hk (Rat.not_lt.mpr this)
    · omega

-- a list of 2 values below the density threshold 1/2 is kept with the default size threshold and
-- dropped with size threshold 5
example : pass { denser := some (fun n u => decide (u < 2 * n)), size := 0 } 2 100 = true := by decide
example : pass { denser := some (fun n u => decide (u < 2 * n)), size := 5 } 2 100 = false := by decide
example : pass { denser := some (fun n u => decide (u < 2 * n)), size := 5 } 3 5 = true := by decide
example : pass { size := 5 } 6 100 = true := by decide

/-! ## C17: empty lists -/

/-- C17: whatever the file contains (well-formed or not), whenever the collection builder calls
`encode_sequence`, it passes a non-empty list of the announced length. -/
theorem C17_never_empty {data : List Nat} {n u : Nat} (hn : rdv data i = .ok n)
    (hu : rdv data (i + n) = .ok u) (hp : pass params n u = true) :
    0 < n ∧ ((data.drop (i + 1)).take n).length = n := by
  have hb : i + n < data.length := by
    unfold rdv at hu
    cases e : data[i + n]? with
    | none => rw [e] at hu; cases hu
    | some v => exact (List.getElem?_eq_some_iff.mp e).1
  refine ⟨?_, by rw [List.length_take, List.length_drop]; omega⟩
  rcases Nat.eq_zero_or_pos n with rfl | h
  · exfalso
    rw [Nat.add_zero, hn] at hu
    cases hu
    unfold pass at hp
    cases h : params.denser <;> simp [h] at hp
  · exact h

example : 0 < 2 ∧ (([9, 2, 7, 8].drop 2).take 2).length = 2 :=
  C17_never_empty (params := {}) (i := 1) (data := [9, 2, 7, 8]) (n := 2) (u := 8) rfl rfl rfl

/-- C17: empty lists in a collection change nothing but the position in the file. -/
theorem C17_skipped {data : List Nat} {fuel : Nat} {s : IdxState} (h0 : data[i]? = some 0) :
    build_loop dbg params data (fuel + 1) i s = build_loop dbg params data fuel (i + 1) s := by
  have hb := (List.getElem?_eq_some_iff.mp h0).1
  conv => lhs; unfold build_loop
  rw [if_pos hb, rdv_of h0]
  simp only [ok_bind, Nat.add_zero, rdv_of h0]
  rw [if_neg]
  · rfl
  · intro hp
    have := (C17_never_empty (params := params) (rdv_of h0) (by rw [Nat.add_zero]; exact rdv_of h0)
      hp).1
    omega

example (s : IdxState) : build_loop true {} [9, 0, 1, 7] 5 1 s = build_loop true {} [9, 0, 1, 7] 4 2 s :=
  C17_skipped (i := 1) (data := [9, 0, 1, 7]) rfl

/-- C17: a collection and the collection without its empty lists give the same index. -/
theorem C17_collection (hg : GoodCollection params univ lists) :
    ∃ r, build_index dbg params (collection univ lists) = .ok r ∧
      ∃ r', build_index dbg params (collection univ (lists.filter (fun xs => !xs.isEmpty))) = .ok r' ∧
        r'.1 = r.1 ∧ r'.2.1 = r.2.1 := by
  have hg' : GoodCollection params univ (lists.filter (fun xs => !xs.isEmpty)) :=
    ⟨hg.1, fun x hx => hg.2.1 x (List.mem_filter.mp hx).1,
      fun x hx => hg.2.2 x (List.mem_filter.mp hx).1⟩
  obtain ⟨s1, e1, -⟩ := build_index_spec (dbg := dbg) hg
  obtain ⟨s2, e2, -⟩ := build_index_spec (dbg := dbg) hg'
  have : keptLists params (lists.filter (fun xs => !xs.isEmpty)) = keptLists params lists := by
    unfold keptLists
    rw [List.filter_filter]
    refine List.filter_congr (fun xs _ => ?_)
    cases xs with
    | nil => simp [Kept]
    | cons x t => simp
  rw [this] at e2
  exact ⟨_, e1, _, e2, rfl, rfl⟩

/-! ## C20, C21: statistics of a collection -/

theorem save_index_length (offs : List Nat) (seqs : List UInt8) :
    (save_index offs seqs).length = 16 + 8 * offs.length + seqs.length := by
  unfold save_index
  simp only [List.length_append, le64_length, words_bytes_length]
  omega

/-- C20 for an index: the reported bits are 8 times the size of the saved file. -/
theorem C20_index_bits (hg : GoodCollection params univ lists)
    (hb : build_index dbg params (collection univ lists) = .ok (offs, seqs, st)) :
    st.bits = 8 * (save_index offs seqs).length := by
  obtain ⟨st', e, st1, h, rfl⟩ := build_index_spec (dbg := dbg) hg
  rw [hb] at e
  simp only [Except.ok.injEq, Prod.mk.injEq] at e
  obtain ⟨rfl, rfl, rfl⟩ := e
  rw [save_index_length, List.length_cons, startsOf, startsFrom_length]
  have hr := h.raw
  simp only [Stats.finish_bits]
  have : Stats.raw {} = 0 := rfl
  omega

/-- C21 for a collection: the number of sequences and integers are those of the lists that are kept,
the number of chunks is the sum of the slices each list spans, and the classes add up. -/
theorem C21_collection_counters (hg : GoodCollection params univ lists)
    (hb : build_index dbg params (collection univ lists) = .ok (offs, seqs, st)) :
    st.sequences = (keptLists params lists).length ∧
    st.integers = ((keptLists params lists).map List.length).sum ∧
    st.integers = st.integers_in_sparse_chunks + st.integers_in_dense_chunks
      + st.integers_in_full_chunks ∧
    st.integers_in_sparse_chunks = st.integers_in_sparse_blocks + st.integers_in_dense_blocks ∧
    st.chunks = st.empty_chunks + st.sparse_chunks + st.dense_chunks + st.full_chunks ∧
    st.blocks = st.empty_blocks + st.sparse_blocks + st.dense_blocks ∧
    st.chunks = ((keptLists params lists).map (fun xs => xs.getLast?.getD 0 / 65536 + 1)).sum := by
  obtain ⟨st', e, st1, h, rfl⟩ := build_index_spec (dbg := dbg) hg
  rw [hb] at e
  simp only [Except.ok.injEq, Prod.mk.injEq] at e
  obtain ⟨-, -, rfl⟩ := e
  have hb := h.balanced ⟨rfl, rfl, rfl, rfl, rfl⟩
  exact ⟨h.sequences.trans (Nat.zero_add _), h.integers.trans (Nat.zero_add _), hb.ints,
    hb.sparse_ints, hb.chunks, hb.blocks, h.chunks.trans (Nat.zero_add _)⟩

/-! ## Where things are in the file -/

/-- The position in the saved file at which the `i`-th of the kept lists `ks` begins. -/
def startAt (ks : List (List Nat)) (i : Nat) : Nat :=
  16 + 8 * (ks.length + 1) + ((ks.take i).map encodedSize).sum

theorem allBytes_length (ks : List (List Nat)) :
    (allBytes ks).length = (ks.map encodedSize).sum := by
  induction ks with
  | nil => rfl
  | cons x t ih =>
    have hs := seqBytes_size x
    unfold allBytes at ih ⊢
    rw [List.flatMap_cons, List.length_append, List.map_cons, List.sum_cons, ih, hs]

theorem Loaded.mid {F pre y post : List UInt8} (h : Loaded m a (F.take c))
    (e : F = pre ++ (y ++ post)) (hc : pre.length + y.length ≤ c) : Loaded m (a + pre.length) y := by
  intro j b hb
  have hj := (List.getElem?_eq_some_iff.mp hb).1
  rw [Nat.add_assoc]
  refine h _ _ ?_
  rw [List.getElem?_take_of_lt (by omega), e, List.getElem?_append_right (by omega),
    Nat.add_sub_cancel_left, List.getElem?_append_left hj, hb]

/-- the saved file as words followed by bytes -/
theorem save_index_eq (u : Nat) (starts : List Nat) (seqs : List UInt8) :
    save_index (u :: starts) seqs
      = ((starts.length + 1) :: u :: starts ++ [seqs.length]).flatMap le64 ++ seqs := by
  unfold save_index
  simp only [List.flatMap_cons, List.length_cons, List.flatMap_append, List.cons_append,
    List.flatMap_nil, List.append_nil, List.append_assoc]

theorem file_word {W : List Nat} {seqs : List UInt8} {j x : Nat}
    (hl : Loaded m a ((W.flatMap le64 ++ seqs).take c)) (hj : W[j]? = some x)
    (hc : 8 * j + 8 ≤ c) (hx : x < 18446744073709551616) : rd64 m (a + 8 * j) = .ok x := by
  have hlt := (List.getElem?_eq_some_iff.mp hj).1
  have hW : W = W.take j ++ ([x] ++ W.drop (j + 1)) := by
    rw [List.singleton_append, ← (List.getElem?_eq_some_iff.mp hj).2,
      List.getElem_cons_drop hlt, List.take_append_drop]
  have e : W.flatMap le64 ++ seqs
      = (W.take j).flatMap le64 ++ (le64 x ++ ((W.drop (j + 1)).flatMap le64 ++ seqs)) := by
    conv => lhs; rw [hW]
    simp only [List.flatMap_append, List.flatMap_cons, List.flatMap_nil, List.append_nil,
      List.append_assoc]
  have hpl : ((W.take j).flatMap le64).length = 8 * j := by
    rw [words_bytes_length, List.length_take]; omega
  have := hl.mid e (by rw [hpl, le64_length]; exact hc)
  rw [hpl] at this
  exact this.rd64 hx

theorem sum_take_le (L : List Nat) (i : Nat) : (L.take i).sum ≤ L.sum := by
  induction L generalizing i with
  | nil => simp
  | cons x t ih =>
    cases i with
    | zero => simp
    | succ i => have := ih i; simp only [List.take_succ_cons, List.sum_cons]; omega

/-- A saved index that is in memory up to byte `c` of the file. -/
theorem mmap_spec {ks : List (List Nat)} (hu : univ < 4294967296) (hval : ∀ xs ∈ ks, Valid xs)
    (hsz : (save_index (univ :: startsOf ks) (allBytes ks)).length < 18446744073709551616)
    (hl : Loaded m a ((save_index (univ :: startsOf ks) (allBytes ks)).take c)) (hc : 16 ≤ c) :
    ∃ idx, SIndex.mmap m a = .ok idx ∧ idx.univ = univ ∧ idx.size = ks.length ∧
      (∀ i, i < ks.length → 16 + 8 * i + 8 ≤ c → ∀ dbg', idx.get dbg' m i
        = SSeq.ofAddr m (a + startAt ks i)) ∧
      (∀ i xs pad, ks[i]? = some xs → startAt ks i + encodedSize xs ≤ c →
        Readable m (a + startAt ks i + encodedSize xs) pad →
        ∀ dbg dbg', ∃ s bytes, idx.get dbg' m i = .ok s ∧ bytes.length = encodedSize xs ∧
          StoredAt dbg xs pad m (a + startAt ks i) bytes s) := by
  have hsl : (startsOf ks).length = ks.length := startsFrom_length 0 ks
  rw [save_index_length, List.length_cons, hsl] at hsz
  rw [save_index_eq] at hl
  have w0 := file_word hl (j := 0) (by rfl) (by omega) (by rw [hsl]; omega)
  have w1 := file_word hl (j := 1) (x := univ) (by rfl) (by omega) (by omega)
  rw [Nat.mul_zero, Nat.add_zero, hsl] at w0
  refine ⟨⟨a + 16, a + (ks.length + 1) * 8 + 8 + 8,
    u64 (ks.length + 1 + 18446744073709551615), univ⟩, ?_, rfl, ?_, ?_⟩
  · unfold SIndex.mmap
    rw [w0]
    simp only [ok_bind]
    rw [w1]
    simp only [ok_bind]
    rw [show u64 ((ks.length + 1) * 8) = (ks.length + 1) * 8 by unfold u64; omega]; rfl
  · show u64 _ = _
    unfold u64; omega
  have hget : (∀ i, i < ks.length → 16 + 8 * i + 8 ≤ c → ∀ dbg', SIndex.get dbg' m
      ⟨a + 16, a + (ks.length + 1) * 8 + 8 + 8,
        u64 (ks.length + 1 + 18446744073709551615), univ⟩ i
        = SSeq.ofAddr m (a + startAt ks i)) := by
    intro i hi hic dbg'
    have hs := startsFrom_get 0 ks hi
    rw [Nat.zero_add] at hs
    have hle : (allBytes (ks.take i)).length ≤ (allBytes ks).length := by
      rw [allBytes_length, allBytes_length, List.map_take]
      exact sum_take_le _ _
    have w2 := file_word hl (j := i + 2) (x := (allBytes (ks.take i)).length) (by
      rw [List.cons_append, List.cons_append, List.getElem?_cons_succ, List.getElem?_cons_succ,
        List.getElem?_append_left (by rw [hsl]; exact hi)]
      exact hs) (by omega) (by omega)
    unfold SIndex.get
    simp only
    rw [cassert_of (decide_eq_true (show i < u64 _ by unfold u64; omega))]
    simp only [ok_bind]
    rw [show a + 16 + 8 * i = a + 8 * (i + 2) by omega, w2]
    simp only [ok_bind]
    refine congrArg (SSeq.ofAddr m) ?_
    unfold startAt
    rw [allBytes_length]
    omega
  refine ⟨hget, ?_⟩
  intro i xs pad hi hic hr dbg dbg'
  have hlt := (List.getElem?_eq_some_iff.mp hi).1
  have hv : Valid xs := hval xs (List.mem_of_getElem? hi)
  have hg := hget i hlt (by unfold startAt at hic; omega) dbg'
  rw [hg]
  obtain ⟨st, bytes, hb, hst⟩ := stored_total dbg hv
  have hlen := C35_exact_size hv hb
  have hks : ks = ks.take i ++ ([xs] ++ ks.drop (i + 1)) := by
    rw [List.singleton_append, ← (List.getElem?_eq_some_iff.mp hi).2,
      List.getElem_cons_drop hlt, List.take_append_drop]
  have hbs : bytes = seqBytes (chunksOf xs) := by
    obtain ⟨s', k, e, -⟩ := build_sequence_spec (dbg := dbg) hv []
    rw [List.nil_append, hb] at e
    exact (Prod.mk.inj (Except.ok.inj e)).2
  have e : allBytes ks = allBytes (ks.take i) ++ (bytes ++ allBytes (ks.drop (i + 1))) := by
    conv => lhs; rw [hks]
    unfold allBytes
    simp only [List.flatMap_append, List.flatMap_cons, List.flatMap_nil, List.append_nil, hbs]
  have hwl : ((((startsOf ks).length + 1) :: univ :: startsOf ks ++ [(allBytes ks).length]).flatMap
      le64).length + (allBytes (ks.take i)).length = startAt ks i := by
    rw [words_bytes_length]
    simp only [List.length_append, List.length_cons, List.length_nil, hsl, allBytes_length]
    unfold startAt
    omega
  have hload : Loaded m (a + startAt ks i) bytes := by
    have := hl.mid (pre := (((startsOf ks).length + 1) :: univ :: startsOf ks
      ++ [(allBytes ks).length]).flatMap le64 ++ allBytes (ks.take i)) (y := bytes)
      (post := allBytes (ks.drop (i + 1))) (by rw [List.append_assoc, ← e])
      (by rw [List.length_append, hwl, hlen]; exact hic)
    rwa [List.length_append, hwl] at this
  rw [← hlen] at hr
  obtain ⟨s, hs, -⟩ := hst m _ pad hload hr
  exact ⟨s, bytes, hs, hlen, ⟨st, hb⟩, hload, hr, hs⟩

theorem keptLists_valid (hg : GoodCollection params univ lists) :
    ∀ xs ∈ keptLists params lists, Valid xs := by
  intro xs hx
  obtain ⟨h1, h2⟩ := List.mem_filter.mp hx
  exact hg.2.2 xs h1 (of_decide_eq_true h2)

theorem startAt_le {ks : List (List Nat)} (hi : ks[i]? = some xs) :
    startAt ks i + encodedSize xs ≤ 16 + 8 * (ks.length + 1) + (ks.map encodedSize).sum := by
  have hlt := (List.getElem?_eq_some_iff.mp hi).1
  have : ks = ks.take i ++ ([xs] ++ ks.drop (i + 1)) := by
    rw [List.singleton_append, ← (List.getElem?_eq_some_iff.mp hi).2,
      List.getElem_cons_drop hlt, List.take_append_drop]
  have e : (ks.map encodedSize).sum = ((ks.take i).map encodedSize).sum
      + (encodedSize xs + ((ks.drop (i + 1)).map encodedSize).sum) := by
    conv => lhs; rw [this]
    simp only [List.map_append, List.sum_append, List.map_cons, List.sum_cons, List.map_nil,
      List.sum_nil, Nat.add_zero]
  unfold startAt
  omega

theorem startAt_mono {ks : List (List Nat)} {j : Nat} (hi : ks[i]? = some xs) (hij : i < j) :
    startAt ks i + encodedSize xs ≤ startAt ks j := by
  have hlt := (List.getElem?_eq_some_iff.mp hi).1
  have h1 : ks.take (i + 1) = ks.take i ++ [xs] := by
    rw [List.take_succ, hi]; rfl
  have h2 : ks.take j = ks.take (i + 1) ++ (ks.take j).drop (i + 1) := by
    conv => lhs; rw [← List.take_append_drop (i + 1) (ks.take j), List.take_take,
      Nat.min_eq_left (by omega)]
  unfold startAt
  rw [h2, h1]
  simp only [List.map_append, List.sum_append, List.map_cons, List.map_nil, List.sum_cons,
    List.sum_nil]
  omega

/-! ## C18: round trip through the file -/

/-- C18: build a collection, save it, map the file (followed by 31 readable bytes): `universe()`
and `size()` are right, and the `i`-th sequence is the `i`-th list that is kept, with its encoding
at the place `startAt` of the file. -/
theorem C18_round_trip {pad : Nat} (hg : GoodCollection params univ lists)
    (hb : build_index dbg params (collection univ lists) = .ok (offs, seqs, st))
    (hsz : (save_index offs seqs).length < 18446744073709551616)
    (hl : Loaded m a (save_index offs seqs))
    (hr : Readable m (a + (save_index offs seqs).length) pad) :
    ∃ idx, SIndex.mmap m a = .ok idx ∧ idx.univ = univ ∧
      idx.size = (keptLists params lists).length ∧
      ∀ i xs, (keptLists params lists)[i]? = some xs → ∀ dbg', ∃ s bytes,
        idx.get dbg' m i = .ok s ∧ bytes.length = encodedSize xs ∧
        StoredAt dbg xs pad m (a + startAt (keptLists params lists) i) bytes s := by
  obtain ⟨st', e, -⟩ := build_index_spec (dbg := dbg) hg
  rw [hb] at e
  simp only [Except.ok.injEq, Prod.mk.injEq] at e
  obtain ⟨rfl, rfl, -⟩ := e
  generalize hks : keptLists params lists = ks at *
  have hlen : (save_index (univ :: startsOf ks) (allBytes ks)).length
      = 16 + 8 * (ks.length + 1) + (ks.map encodedSize).sum := by
    rw [save_index_length, List.length_cons, startsOf, startsFrom_length, allBytes_length]
  have hrd := hl.readable.append hr
  obtain ⟨idx, h1, h2, h3, -, h4⟩ := mmap_spec (m := m) (a := a)
    (c := (save_index (univ :: startsOf ks) (allBytes ks)).length) hg.1
    (by rw [← hks]; exact keptLists_valid hg) hsz (by rw [List.take_length]; exact hl)
    (by rw [hlen]; omega)
  refine ⟨idx, h1, h2, h3, ?_⟩
  intro i xs hi dbg'
  have hle := startAt_le hi
  refine h4 i xs pad hi (by rw [hlen]; exact hle) ?_ dbg dbg'
  intro j hj
  have := hrd (startAt ks i + encodedSize xs + j) (by rw [hlen]; omega)
  rwa [← Nat.add_assoc, ← Nat.add_assoc] at this

/-- C18: decoding the `i`-th sequence of the index gives the `i`-th list that is kept. -/
theorem C18_decode (hg : GoodCollection params univ lists)
    (hb : build_index dbg params (collection univ lists) = .ok (offs, seqs, st))
    (hsz : (save_index offs seqs).length < 18446744073709551616)
    (hl : Loaded m a (save_index offs seqs))
    (hr : Readable m (a + (save_index offs seqs).length) 31)
    (hi : (keptLists params lists)[i]? = some xs) (out : List Nat)
    (hcap : xs.length + 23 ≤ out.length) :
    ∃ idx s out', SIndex.mmap m a = .ok idx ∧ idx.get dbg' m i = .ok s ∧
      s.decode dbg' m out 0 = .ok (xs.length, out') ∧ out'.take xs.length = xs := by
  obtain ⟨idx, h1, -, -, h4⟩ := C18_round_trip hg hb hsz hl hr
  obtain ⟨s, bytes, hs, -, hst⟩ := h4 i xs hi dbg'
  obtain ⟨out', d1, d2⟩ := C01_decode_take (dbg' := dbg')
    (keptLists_valid hg xs (List.mem_of_getElem? hi)) hst.stored out hcap
  exact ⟨idx, s, out', h1, hs, d1, d2⟩

/-- C18: any two sequences of an index (possibly the same one twice) can be intersected and united;
`ZI` and `ZU` enumerate the intersection and the union of the two lists. -/
theorem C18_pairwise {tab : Nat → List Nat} {j : Nat} {ys ZI ZU : List Nat} (ht : TabOk tab)
    (hg : GoodCollection params univ lists)
    (hb : build_index dbg params (collection univ lists) = .ok (offs, seqs, st))
    (hsz : (save_index offs seqs).length < 18446744073709551616)
    (hl : Loaded m a (save_index offs seqs))
    (hr : Readable m (a + (save_index offs seqs).length) 31)
    (hi : (keptLists params lists)[i]? = some xs) (hj : (keptLists params lists)[j]? = some ys)
    (hZI : Enumerates ZI (fun v => v ∈ xs ∧ v ∈ ys)) (hZU : Enumerates ZU (fun v => v ∈ xs ∨ v ∈ ys))
    (x : List Nat) (hx : x.length = 1024) (us : UScratch) (hus : us.Ok)
    (out : List Nat) (hcap : ZU.length + 23 ≤ out.length) :
    ∃ idx l r, SIndex.mmap m a = .ok idx ∧ idx.get dbg' m i = .ok l ∧ idx.get dbg' m j = .ok r ∧
      (∃ x' out', pairwise_intersection dbg' tab m l r x out 0 = .ok (ZI.length, x', out') ∧
        Wrote out 0 ZI 23 out') ∧
      (∃ us' out', pairwise_union dbg' m l r us out 0 = .ok (ZU.length, us', out') ∧
        Wrote out 0 ZU 23 out') := by
  obtain ⟨idx, h1, -, -, h4⟩ := C18_round_trip hg hb hsz hl hr
  obtain ⟨l, bx, el, hbx, sl⟩ := h4 i xs hi dbg'
  obtain ⟨r, bY, er, hbY, sr⟩ := h4 j ys hj dbg'
  have vx := keptLists_valid hg xs (List.mem_of_getElem? hi)
  have vy := keptLists_valid hg ys (List.mem_of_getElem? hj)
  refine ⟨idx, l, r, h1, el, er, ?_, ?_⟩
  · have hlen : ZI.length ≤ ZU.length := by
      have e : ZI = ZU.filter (fun v => decide (v ∈ xs ∧ v ∈ ys)) := by
        refine hZI.unique ⟨hZU.1.filter _, fun v => ?_⟩
        rw [List.mem_filter, hZU.2 v, decide_eq_true_eq]
        exact ⟨fun h => h.2, fun h => ⟨Or.inl h.1, h⟩⟩
      rw [e]; exact List.length_filter_le ..
    obtain ⟨x', o, e, -, w⟩ := C10_intersection (dbg := dbg') ht vx vy sl.stored sr.stored hZI x hx
      out 0 (by omega)
    exact ⟨x', o, e, w⟩
  · have hap : a + startAt (keptLists params lists) i = a + startAt (keptLists params lists) j ∨
        a + startAt (keptLists params lists) i + bx.length
          ≤ a + startAt (keptLists params lists) j ∨
        a + startAt (keptLists params lists) j + bY.length
          ≤ a + startAt (keptLists params lists) i := by
      rcases Nat.lt_trichotomy i j with h | h | h
      · have := startAt_mono hi h; omega
      · subst h; omega
      · have := startAt_mono hj h; omega
    obtain ⟨us', o, e, -, w⟩ := C11_union (dbg := dbg') vx vy sl sr hap hZU us hus out 0 (by omega)
    exact ⟨us', o, e, w⟩

/-- Building a good collection always succeeds, and the result can be mapped. -/
theorem C18_exists (hg : GoodCollection params univ lists) :
    ∃ offs seqs st, build_index dbg params (collection univ lists) = .ok (offs, seqs, st) ∧
      ∀ a, ∃ m, Loaded m a (save_index offs seqs) ∧
        Readable m (a + (save_index offs seqs).length) 31 := by
  obtain ⟨st', e, -⟩ := build_index_spec (dbg := dbg) hg
  exact ⟨_, _, _, e, fun a => ⟨memOf a _ 31, loaded_memOf _ _ _, readable_memOf _ _ _⟩⟩

/-! ## C29: truncated files -/

/-- C29: if only the first `c ≥ 16` bytes of the file are there, `mmap` still gives the right
universe and size, and every sequence whose encoding and 31 following bytes lie before the cut is
the right list (so that every query about it is answered correctly). -/
theorem C29_truncated (hg : GoodCollection params univ lists)
    (hb : build_index dbg params (collection univ lists) = .ok (offs, seqs, st))
    (hsz : (save_index offs seqs).length < 18446744073709551616)
    (hc : 16 ≤ c) (hcl : c ≤ (save_index offs seqs).length)
    (hl : Loaded m a ((save_index offs seqs).take c)) :
    ∃ idx, SIndex.mmap m a = .ok idx ∧ idx.univ = univ ∧
      idx.size = (keptLists params lists).length ∧
      ∀ i xs, (keptLists params lists)[i]? = some xs →
        startAt (keptLists params lists) i + encodedSize xs + 31 ≤ c →
        ∀ dbg', ∃ s, idx.get dbg' m i = .ok s ∧ Stored dbg xs 31 m s := by
  obtain ⟨st', e, -⟩ := build_index_spec (dbg := dbg) hg
  rw [hb] at e
  simp only [Except.ok.injEq, Prod.mk.injEq] at e
  obtain ⟨rfl, rfl, -⟩ := e
  generalize hks : keptLists params lists = ks at *
  have hrd := hl.readable
  rw [List.length_take, Nat.min_eq_left hcl] at hrd
  obtain ⟨idx, h1, h2, h3, -, h4⟩ := mmap_spec (m := m) (a := a) hg.1
    (by rw [← hks]; exact keptLists_valid hg) hsz hl hc
  refine ⟨idx, h1, h2, h3, ?_⟩
  intro i xs hi hic dbg'
  obtain ⟨s, bytes, hs, -, hst⟩ := h4 i xs 31 hi (by omega) (by
    intro j hj
    have := hrd (startAt ks i + encodedSize xs + j) (by omega)
    rwa [← Nat.add_assoc, ← Nat.add_assoc] at this) dbg dbg'
  exact ⟨s, hs, hst.stored⟩

theorem rd8_cases (m : Mem) (a : Nat) : rd8 m a = .error .ub ∨ ∃ x, rd8 m a = .ok x := by
  unfold rd8
  cases m a with
  | none => exact Or.inl rfl
  | some b => exact Or.inr ⟨_, rfl⟩

theorem bind_ub {α β γ : Type} {x : Res α} {y : Res β} {f : α → β → γ}
    (hx : x = .error .ub ∨ ∃ v, x = .ok v) (hy : y = .error .ub ∨ ∃ v, y = .ok v) :
    (do let u ← x; let v ← y; return f u v) = (.error .ub : Res γ) ∨
      ∃ w, (do let u ← x; let v ← y; return f u v) = (.ok w : Res γ) := by
  rcases hx with rfl | ⟨u, rfl⟩
  · exact Or.inl rfl
  · rcases hy with rfl | ⟨v, rfl⟩
    · exact Or.inl rfl
    · exact Or.inr ⟨_, rfl⟩

theorem bind_ub_right {α β γ : Type} {x : Res α} {y : Res β} {f : α → β → γ}
    (hx : x = .error .ub ∨ ∃ v, x = .ok v) (hy : y = .error .ub) :
    (do let u ← x; let v ← y; return f u v) = (.error .ub : Res γ) := by
  rcases hx with rfl | ⟨u, rfl⟩
  · rfl
  · rw [hy]; rfl

theorem rd16_cases (m : Mem) (a : Nat) : rd16 m a = .error .ub ∨ ∃ x, rd16 m a = .ok x :=
  bind_ub (rd8_cases ..) (rd8_cases ..)
theorem rd32_cases (m : Mem) (a : Nat) : rd32 m a = .error .ub ∨ ∃ x, rd32 m a = .ok x :=
  bind_ub (rd16_cases ..) (rd16_cases ..)
theorem rd64_cases (m : Mem) (a : Nat) : rd64 m a = .error .ub ∨ ∃ x, rd64 m a = .ok x :=
  bind_ub (rd32_cases ..) (rd32_cases ..)

theorem rd8_none {m : Mem} {a : Nat} (h : m a = none) : rd8 m a = .error .ub := by
  unfold rd8; rw [h]
theorem rd16_none {m : Mem} {a : Nat} (h : m (a + 1) = none) : rd16 m a = .error .ub :=
  bind_ub_right (rd8_cases ..) (rd8_none h)
theorem rd32_none {m : Mem} {a : Nat} (h : m (a + 3) = none) : rd32 m a = .error .ub :=
  bind_ub_right (rd16_cases ..) (rd16_none h)
theorem rd64_none {m : Mem} {a : Nat} (h : m (a + 7) = none) : rd64 m a = .error .ub :=
  bind_ub_right (rd32_cases ..) (rd32_none h)

/-- C29: if nothing can be read at or after byte `c < 16` of the file, `mmap` reads out of bounds;
the length of the file is not checked. -/
theorem C29_short_ub (hc : c < 16) (hend : ∀ x, a + c ≤ x → m x = none) :
    SIndex.mmap m a = .error .ub := by
  unfold SIndex.mmap
  have h2 : rd64 m (a + 8) = .error .ub := rd64_none (hend _ (by omega))
  rcases rd64_cases m a with h | ⟨x, h⟩
  · rw [h]; rfl
  · rw [h]
    simp only [ok_bind]
    rw [h2]; rfl

/-- C29: and a sequence that begins at or after the cut (less than the two bytes of its first field
before it) is an out-of-bounds read in `operator[]`. -/
theorem C29_missing_ub (hg : GoodCollection params univ lists)
    (hb : build_index dbg params (collection univ lists) = .ok (offs, seqs, st))
    (hsz : (save_index offs seqs).length < 18446744073709551616)
    (hc : 16 ≤ c) (hl : Loaded m a ((save_index offs seqs).take c))
    (hend : ∀ x, a + c ≤ x → m x = none) (hi : i < (keptLists params lists).length)
    (hic : c < startAt (keptLists params lists) i + 2) :
    ∃ idx, SIndex.mmap m a = .ok idx ∧ idx.get dbg' m i = .error .ub := by
  obtain ⟨st', e, -⟩ := build_index_spec (dbg := dbg) hg
  rw [hb] at e
  simp only [Except.ok.injEq, Prod.mk.injEq] at e
  obtain ⟨rfl, rfl, -⟩ := e
  generalize hks : keptLists params lists = ks at *
  obtain ⟨idx, h1, h2, h3, h4, -⟩ := mmap_spec (m := m) (a := a) hg.1
    (by rw [← hks]; exact keptLists_valid hg) hsz hl hc
  refine ⟨idx, h1, ?_⟩
  by_cases hw : 16 + 8 * i + 8 ≤ c
  · rw [h4 i hi hw dbg']
    unfold SSeq.ofAddr
    rw [rd16_none (hend _ (by omega))]; rfl
  · have ho : idx.offsets = a + 16 := by
      unfold SIndex.mmap at h1
      cases e1 : rd64 m a with
      | error x => rw [e1] at h1; cases h1
      | ok x =>
        rw [e1] at h1
        simp only [ok_bind] at h1
        cases e2 : rd64 m (a + 8) with
        | error x => rw [e2] at h1; cases h1
        | ok x =>
          rw [e2] at h1
          simp only [ok_bind, pure_ok, Except.ok.injEq] at h1
          rw [← h1]
    unfold SIndex.get
    rw [cassert_of (by rw [h3]; exact decide_eq_true hi)]
    simp only [ok_bind]
    rw [ho, rd64_none (hend _ (by omega))]; rfl

/-! ## A concrete collection -/

/-- two short lists, an empty one, and the mixed sample list -/
def sampleColl : List (List Nat) := [[3, 5, 300, 70000], [], [7], [3, 5, 300, 70000]]

theorem sampleColl_good : GoodCollection { size := 1 } 80000 sampleColl := by
  refine ⟨by decide, ?_, ?_⟩
  · intro xs hx
    simp only [sampleColl, List.mem_cons, List.not_mem_nil, or_false] at hx
    rcases hx with rfl | rfl | rfl | rfl <;> simp
  · intro xs hx hk
    simp only [sampleColl, List.mem_cons, List.not_mem_nil, or_false] at hx
    rcases hx with rfl | rfl | rfl | rfl
    · exact small_valid
    · exact absurd rfl hk.1
    · rcases hk.2 with ⟨f, hf, -⟩ | h
      · cases hf
      · simp at h
    · exact small_valid

example : keptLists { size := 1 } sampleColl = [[3, 5, 300, 70000], [3, 5, 300, 70000]] := by decide

-- the whole round trip, with one list filtered out for its length and an empty one skipped
example : ∃ offs seqs st m idx s out', build_index true { size := 1 } (collection 80000 sampleColl)
      = .ok (offs, seqs, st) ∧ Loaded m 4096 (save_index offs seqs) ∧
    SIndex.mmap m 4096 = .ok idx ∧ idx.get true m 1 = .ok s ∧
    s.decode true m (List.replicate 27 0) 0 = .ok (4, out') ∧ out'.take 4 = [3, 5, 300, 70000] := by
  obtain ⟨offs, seqs, st, hb, h⟩ := C18_exists (dbg := true) sampleColl_good
  obtain ⟨m, hl, hr⟩ := h 4096
  have hsz : (save_index offs seqs).length < 18446744073709551616 := by
    have h1 := C20_index_bits sampleColl_good hb
    have h2 : (build_index true { size := 1 } (collection 80000 sampleColl)).toOption.map
        (fun r => decide (r.2.2.bits < 8000)) = some true := by decide +kernel
    rw [hb] at h2
    have h2 : some (decide (st.bits < 8000)) = some true := h2
    have := of_decide_eq_true (Option.some.inj h2)
    omega
  obtain ⟨idx, s, o, h1, h2, h3, h4⟩ := C18_decode (dbg' := true) sampleColl_good hb hsz hl hr
    (i := 1) (xs := [3, 5, 300, 70000]) (by decide) (List.replicate 27 0)
    (by rw [List.length_replicate]; decide)
  exact ⟨offs, seqs, st, m, idx, s, o, hb, hl, h1, h2, h3, h4⟩

/-- the sample collection, built, saved and mapped at address 4096 -/
theorem sampleColl_ready (dbg : Bool) : ∃ offs seqs st m,
    build_index dbg { size := 1 } (collection 80000 sampleColl) = .ok (offs, seqs, st) ∧
    16 ≤ (save_index offs seqs).length ∧ (save_index offs seqs).length < 18446744073709551616 ∧
    Loaded m 4096 (save_index offs seqs) ∧ Readable m (4096 + (save_index offs seqs).length) 31 := by
  obtain ⟨offs, seqs, st, hb, h⟩ := C18_exists (dbg := dbg) sampleColl_good
  obtain ⟨m, hl, hr⟩ := h 4096
  refine ⟨offs, seqs, st, m, hb, ?_, ?_, hl, hr⟩
  · unfold save_index
    simp only [List.length_append, le64_length]
    omega
  · have h1 := C20_index_bits sampleColl_good hb
    have h2 : (build_index dbg { size := 1 } (collection 80000 sampleColl)).toOption.map
        (fun r => decide (r.2.2.bits < 8000)) = some true := by cases dbg <;> decide +kernel
    rw [hb] at h2
    have h2 : some (decide (st.bits < 8000)) = some true := h2
    have := of_decide_eq_true (Option.some.inj h2)
    omega

example : ∃ r r', build_index true { size := 1 } (collection 80000 sampleColl) = .ok r ∧
    build_index true { size := 1 } (collection 80000 (sampleColl.filter (fun xs => !xs.isEmpty))) = .ok r' ∧
    r'.1 = r.1 ∧ r'.2.1 = r.2.1 := by
  obtain ⟨r, h1, r', h2⟩ := C17_collection (dbg := true) sampleColl_good
  exact ⟨r, r', h1, h2⟩

example : ∃ offs seqs st, build_index true { size := 1 } (collection 80000 sampleColl)
      = .ok (offs, seqs, st) ∧ st.sequences = 2 ∧ st.integers = 8 ∧ st.chunks = 4 := by
  obtain ⟨offs, seqs, st, m, hb, -⟩ := sampleColl_ready true
  obtain ⟨h1, h2, -, -, -, -, h3⟩ := C21_collection_counters sampleColl_good hb
  exact ⟨offs, seqs, st, hb, h1.trans (by decide), h2.trans (by decide), h3.trans (by decide)⟩

example : ∃ offs seqs st m idx, build_index true { size := 1 } (collection 80000 sampleColl)
      = .ok (offs, seqs, st) ∧ Loaded m 4096 (save_index offs seqs) ∧
    SIndex.mmap m 4096 = .ok idx ∧ idx.univ = 80000 ∧ idx.size = 2 := by
  obtain ⟨offs, seqs, st, m, hb, -, hsz, hl, hr⟩ := sampleColl_ready true
  obtain ⟨idx, h1, h2, h3, -⟩ := C18_round_trip sampleColl_good hb hsz hl hr
  exact ⟨offs, seqs, st, m, idx, hb, hl, h1, h2, h3.trans (by decide)⟩

-- the two kept lists of the sample collection are equal
example : ∃ offs seqs st m idx l r, build_index true { size := 1 } (collection 80000 sampleColl)
      = .ok (offs, seqs, st) ∧ Loaded m 4096 (save_index offs seqs) ∧
    SIndex.mmap m 4096 = .ok idx ∧ idx.get false m 0 = .ok l ∧ idx.get false m 1 = .ok r ∧
    ∃ x' out', pairwise_intersection false stdTab m l r (List.replicate 1024 0) (List.replicate 27 0) 0
      = .ok (4, x', out') ∧ Wrote (List.replicate 27 0) 0 [3, 5, 300, 70000] 23 out' := by
  obtain ⟨offs, seqs, st, m, hb, -, hsz, hl, hr⟩ := sampleColl_ready true
  obtain ⟨idx, l, r, h1, h2, h3, h4, -⟩ := C18_pairwise (dbg' := false) (i := 0) (j := 1)
    (xs := [3, 5, 300, 70000]) (ys := [3, 5, 300, 70000]) (ZI := [3, 5, 300, 70000])
    (ZU := [3, 5, 300, 70000]) stdTab_ok sampleColl_good hb hsz hl hr (by decide) (by decide)
    ⟨small_valid.2.1, fun v => by simp⟩ ⟨small_valid.2.1, fun v => by simp⟩
    (List.replicate 1024 0) List.length_replicate UScratch.init UScratch.init_ok (List.replicate 27 0)
    (by simp)
  exact ⟨offs, seqs, st, m, idx, l, r, hb, hl, h1, h2, h3, h4⟩

-- a file of which only the first 16 bytes are left
example : ∃ offs seqs st m idx, build_index true { size := 1 } (collection 80000 sampleColl)
      = .ok (offs, seqs, st) ∧ Loaded m 4096 ((save_index offs seqs).take 16) ∧
    SIndex.mmap m 4096 = .ok idx ∧ idx.size = 2 := by
  obtain ⟨offs, seqs, st, m, hb, h16, hsz, hl, hr⟩ := sampleColl_ready true
  have hl' : Loaded m 4096 ((save_index offs seqs).take 16) := by
    intro i b h
    rw [List.getElem?_take] at h
    split at h
    · exact hl i b h
    · cases h
  obtain ⟨idx, h1, -, h3, -⟩ := C29_truncated sampleColl_good hb hsz (Nat.le_refl 16) h16 hl'
  exact ⟨offs, seqs, st, m, idx, hb, hl', h1, h3.trans (by decide)⟩

example : SIndex.mmap (memOf 4096 [1, 2, 3] 0) 4096 = .error .ub :=
  C29_short_ub (c := 3) (by omega) (fun x h => by
    unfold memOf
    rw [if_neg (by omega), List.getElem?_eq_none (by simp; omega)])

-- and where nothing else is mapped
example : ∃ offs seqs st m idx, build_index true { size := 1 } (collection 80000 sampleColl)
      = .ok (offs, seqs, st) ∧ Loaded m 4096 ((save_index offs seqs).take 16) ∧
    SIndex.mmap m 4096 = .ok idx ∧ idx.get false m 1 = .error .ub := by
  obtain ⟨offs, seqs, st, m, hb, h16, hsz, -, -⟩ := sampleColl_ready true
  have hl' := loaded_memOf 4096 ((save_index offs seqs).take 16) 0
  obtain ⟨idx, h1, h2⟩ := C29_missing_ub (dbg' := false) (i := 1) sampleColl_good hb hsz (Nat.le_refl 16)
    hl' (fun x h => by
      unfold memOf
      have h2 : ((save_index offs seqs).take 16).length = 16 := by
        rw [List.length_take]; exact Nat.min_eq_left h16
      rw [if_neg (by omega), List.getElem?_eq_none (by
        rw [List.length_append, List.length_replicate, h2]; omega)]) (by decide) (by unfold startAt; omega)
  exact ⟨offs, seqs, st, _, idx, hb, hl', h1, h2⟩

end Sliced
