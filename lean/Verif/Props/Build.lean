import Verif.Props.Queries
import Verif.Props.Size
import Verif.Proof.StatsDelta
/-!
# Properties of the sequence builder

C02, C16, C17 (sequence part), C20, C21 and C36 (single sequence), C26, C28.
-/
namespace Sliced

variable {dbg dbg' : Bool} {xs ys : List Nat} {out : List UInt8}

/-! ## C02: the last slice of the universe -/

/-- C02: in a debug build, a list with a value in the last slice makes the builder abort. -/
theorem C02_debug_abort (hs : xs.Pairwise (· < ·)) (hb : ∀ x ∈ xs, x < 4294967296)
    (hu : ∃ u ∈ xs, 4294901760 ≤ u) : build_sequence true xs out = .error .abort := by
  obtain ⟨u, hum, hu⟩ := hu
  unfold build_sequence
  rw [(encode_sequence_last hs hb hum hu arraysOk_default).1]
  rfl

example : build_sequence true [7, 4294901760] [] = .error .abort :=
  C02_debug_abort (by simp) (by simp) ⟨4294901760, by simp, by omega⟩

/-- C02: in a release build, the bytes produced are exactly those of the list without the values in
the last slice, provided that is not empty. -/
theorem C02_release_drops (hs : xs.Pairwise (· < ·)) (hb : ∀ x ∈ xs, x < 4294967296)
    (hu : ∃ u ∈ xs, 4294901760 ≤ u)
    (hne : xs.filter (fun x => decide (x < 4294901760)) ≠ []) :
    ∃ st st' bytes, build_sequence false xs [] = .ok (st, bytes) ∧
      build_sequence false (xs.filter (fun x => decide (x < 4294901760))) [] = .ok (st', bytes) := by
  obtain ⟨u, hum, hu⟩ := hu
  obtain ⟨st, h⟩ := (encode_sequence_last hs hb hum hu arraysOk_default (out := [])).2
  have hv : Valid (xs.filter (fun x => decide (x < 4294901760))) :=
    ⟨hne, hs.filter _, fun x hx => by simpa using (List.mem_filter.mp hx).2⟩
  obtain ⟨st', k, h', -⟩ := build_sequence_spec (dbg := false) hv []
  rw [if_neg hne] at h
  refine ⟨st.finish, _, _, ?_, h'⟩
  unfold build_sequence
  rw [h]; rfl

example : ∃ st st' bytes, build_sequence false [7, 4294901760] [] = .ok (st, bytes) ∧
    build_sequence false [7] [] = .ok (st', bytes) :=
  C02_release_drops (xs := [7, 4294901760]) (by simp) (by simp) ⟨4294901760, by simp, by omega⟩ (by simp)

/-- C02: the round trip fails: what was stored is not found again. -/
theorem C02_lost (hs : xs.Pairwise (· < ·)) (hb : ∀ x ∈ xs, x < 4294967296)
    {u : Nat} (hum : u ∈ xs) (hu : 4294901760 ≤ u)
    (hne : xs.filter (fun x => decide (x < 4294901760)) ≠ []) {pad : Nat} {m : Mem} {s : SSeq}
    (hst : Stored false xs pad m s) :
    s.contains dbg' m u = .ok false ∧
      s.cardinality m = .ok (xs.filter (fun x => decide (x < 4294901760))).length := by
  obtain ⟨st, st', bytes, h1, h2⟩ := C02_release_drops hs hb ⟨u, hum, hu⟩ hne
  have hv : Valid (xs.filter (fun x => decide (x < 4294901760))) :=
    ⟨hne, hs.filter _, fun x hx => by simpa using (List.mem_filter.mp hx).2⟩
  have hst' : Stored false (xs.filter (fun x => decide (x < 4294901760))) pad m s := by
    obtain ⟨a, st1, b1, e1, e2, e3, e4⟩ := hst
    rw [h1] at e1
    simp only [Except.ok.injEq, Prod.mk.injEq] at e1
    obtain ⟨-, rfl⟩ := e1
    exact ⟨a, st', bytes, h2, e2, e3, e4⟩
  refine ⟨?_, (C03_cardinality hv hst').1⟩
  rw [C04_contains hv hst' (hb u hum)]
  congr 1
  rw [decide_eq_false_iff_not, List.mem_filter]
  rintro ⟨-, h⟩
  simp at h; omega

example : ∃ m s, Stored false [7, 4294901760] 0 m s ∧ s.contains true m 4294901760 = .ok false ∧
    s.cardinality m = .ok 1 := by
  obtain ⟨st, st', bytes, h1, h2⟩ := C02_release_drops (xs := [7, 4294901760]) (by simp) (by simp)
    ⟨4294901760, by simp, by omega⟩ (by simp)
  have hv : Valid [7] := ⟨by simp, by simp, by simp⟩
  obtain ⟨st'', bytes', e, t⟩ := stored_total false hv
  have e' : build_sequence false [7] [] = .ok (st', bytes) := h2
  rw [e'] at e
  cases e
  obtain ⟨s, o, -⟩ := t (memOf 64 bytes 0) 64 0 (loaded_memOf _ _ _) (readable_memOf _ _ _)
  have h : Stored false [7, 4294901760] 0 (memOf 64 bytes 0) s :=
    ⟨64, st, bytes, h1, loaded_memOf _ _ _, readable_memOf _ _ _, o⟩
  exact ⟨_, s, h, C02_lost (u := 4294901760) (by simp) (by simp) (by simp) (by omega) (by simp) h⟩

/-- C02: with values in the last slice only, the output is two bytes that announce 65536 chunks,
and already computing the cardinality reads outside of the output. -/
theorem C02_only_last (hs : xs.Pairwise (· < ·)) (hb : ∀ x ∈ xs, x < 4294967296) (hne : xs ≠ [])
    (hall : ∀ x ∈ xs, 4294901760 ≤ x) (a : Nat) :
    ∃ st s, build_sequence false xs [] = .ok (st, [255, 255]) ∧
      SSeq.ofAddr (memOf a [255, 255] 31) a = .ok s ∧ s.chunks = 65536 ∧
      s.cardinality (memOf a [255, 255] 31) = .error .ub := by
  obtain ⟨u, hum⟩ := List.exists_mem_of_ne_nil _ hne
  obtain ⟨st, h⟩ := (encode_sequence_last hs hb hum (hall u hum) arraysOk_default (out := [])).2
  rw [if_pos (by
    rw [List.filter_eq_nil_iff]
    intro x hx
    have := hall x hx
    simp; omega)] at h
  have hr : rd16 (memOf a [255, 255] 31) a = .ok 65535 := by
    have hl := loaded_memOf a [255, 255] 31
    have := hl.append (x := [255, 255]) (y := [])
    exact Loaded.rd16 (x := 65535) hl (by omega)
  have ho : SSeq.ofAddr (memOf a [255, 255] 31) a = .ok
      { chunks := 65536, pointers := a + 2, header := a + 2 + 16384,
        data := a + 2 + 16384 + 524288 } := by
    unfold SSeq.ofAddr
    rw [hr]; rfl
  refine ⟨st.finish, _, ?_, ho, rfl, ?_⟩
  · unfold build_sequence
    rw [h]; rfl
  · unfold SSeq.cardinality
    show cardinality_loop _ (65535 + 1) _ 0 = _
    rw [cardinality_loop]
    have : rd16 (memOf a [255, 255] 31) (a + 2 + 16384 + 2) = .error .ub := by
      unfold rd16 rd8
      have : memOf a [255, 255] 31 (a + 2 + 16384 + 2) = none := by
        unfold memOf
        rw [if_neg (by omega), List.getElem?_eq_none]
        simp only [List.length_append, List.length_replicate, List.length_cons, List.length_nil]
        omega
      rw [this]; rfl
    rw [this]; rfl

/-- a list to which all of C02 applies -/
example : ([7, 4294901760].Pairwise (· < ·)) ∧ (∀ x ∈ [7, 4294901760], x < 4294967296) ∧
    (∃ u ∈ [7, 4294901760], 4294901760 ≤ u) ∧
    [7, 4294901760].filter (fun x => decide (x < 4294901760)) ≠ [] := by
  refine ⟨by simp, by simp, ⟨4294901760, by simp, by omega⟩, by simp⟩

example : ∃ st, build_sequence false [4294967295] [] = .ok (st, [255, 255]) := by
  obtain ⟨st, s, h, -⟩ := C02_only_last (xs := [4294967295]) (by simp) (by simp) (by simp) (by simp) 0
  exact ⟨st, h⟩

/-! ## C16, C17 -/

/-- C16: a repeated value makes the builder throw. -/
theorem C16_duplicate_throws (hs : xs.Pairwise (· ≤ ·)) (hb : ∀ x ∈ xs, x < 4294901760)
    (hd : ¬ xs.Pairwise (· < ·)) : build_sequence dbg xs out = .error .exc := by
  unfold build_sequence
  rw [encode_sequence_dup hs hb hd arraysOk_default]
  rfl

/-- C16: exactly the non-decreasing lists without repetition are accepted. -/
theorem C16_accepts_iff (hne : xs ≠ []) (hs : xs.Pairwise (· ≤ ·)) (hb : ∀ x ∈ xs, x < 4294901760) :
    (∃ r, build_sequence dbg xs out = .ok r) ↔ xs.Nodup := by
  have hnd : xs.Nodup ↔ xs.Pairwise (· < ·) := by
    constructor
    · intro h
      refine (hs.and h).imp ?_
      rintro a b ⟨h1, h2⟩
      omega
    · intro h
      exact h.imp (fun h => by omega)
  rw [hnd]
  constructor
  · rintro ⟨r, h⟩
    refine Classical.byContradiction (fun hd => ?_)
    rw [C16_duplicate_throws hs hb hd] at h
    cases h
  · intro h
    obtain ⟨st, k, h', -⟩ := build_sequence_spec (dbg := dbg) ⟨hne, h, hb⟩ out
    exact ⟨_, h'⟩

example : (∃ r, build_sequence true [1, 2, 70000] [] = .ok r) ∧
    ¬ ∃ r, build_sequence true [1, 70000, 70000] [] = .ok r :=
  ⟨(C16_accepts_iff (by simp) (by simp) (by simp)).mpr (by simp), fun h => by
    simpa using (C16_accepts_iff (by simp) (by simp) (by simp)).mp h⟩

example : build_sequence true [1, 70000, 70000, 70001] [] = .error .exc :=
  C16_duplicate_throws (by simp) (by simp) (by simp)

/-- C17: building from no data reads before the array. -/
theorem C17_empty_ub : build_sequence dbg [] out = .error .ub := by
  cases dbg <;> rfl

/-! ## C20, C21: statistics of a single sequence -/

theorem balanced_default : Stats.Balanced {} := ⟨rfl, rfl, rfl, rfl, rfl⟩

/-- C20 for a sequence: reported bits = 8 × bytes + 128. -/
theorem C20_sequence_bits (hv : Valid xs) {st : Stats} {bytes : List UInt8}
    (hb : build_sequence dbg xs [] = .ok (st, bytes)) : st.bits = 8 * bytes.length + 128 := by
  obtain ⟨st', k, h, hs, -⟩ := build_sequence_spec (dbg := dbg) hv []
  rw [hb] at h
  simp only [List.nil_append, Except.ok.injEq, Prod.mk.injEq] at h
  obtain ⟨rfl, rfl⟩ := h
  have hd := hs.delta (by rw [← seqElems_length, seqElems_chunksOf hv])
  rw [Stats.finish_bits, hd.2.2.2.2.1]
  show 0 + _ + 128 = _
  omega

/-- C21 for a sequence. -/
theorem C21_sequence_counters (hv : Valid xs) {st : Stats} {bytes : List UInt8}
    (hb : build_sequence dbg xs [] = .ok (st, bytes)) :
    st.sequences = 1 ∧ st.integers = xs.length ∧
    st.integers = st.integers_in_sparse_chunks + st.integers_in_dense_chunks
      + st.integers_in_full_chunks ∧
    st.integers_in_sparse_chunks = st.integers_in_sparse_blocks + st.integers_in_dense_blocks ∧
    st.chunks = st.empty_chunks + st.sparse_chunks + st.dense_chunks + st.full_chunks ∧
    st.blocks = st.empty_blocks + st.sparse_blocks + st.dense_blocks ∧
    (∀ u ∈ xs, (∀ x ∈ xs, x ≤ u) → st.chunks = u / 65536 + 1) := by
  obtain ⟨st', k, h, hs, u, hu, hmax, hk⟩ := build_sequence_spec (dbg := dbg) hv []
  rw [hb] at h
  simp only [List.nil_append, Except.ok.injEq, Prod.mk.injEq] at h
  obtain ⟨rfl, rfl⟩ := h
  obtain ⟨h1, h2, h3, h4, -, -⟩ := hs.delta (by rw [← seqElems_length, seqElems_chunksOf hv])
  have hb := h4 balanced_default
  refine ⟨h1.trans (Nat.zero_add _), h2.trans (Nat.zero_add _), hb.ints, hb.sparse_ints, hb.chunks,
    hb.blocks, ?_⟩
  intro w hw hwm
  have e1 := hmax w hw
  have e2 := hwm u hu
  have : st'.chunks = 0 + k := h3
  show st'.chunks = _
  have : u = w := by omega
  subst this
  omega

example : ∃ st bytes, build_sequence false sampleList [] = .ok (st, bytes) ∧
    st.bits = 8 * bytes.length + 128 ∧ st.integers = sampleList.length := by
  obtain ⟨st, bytes, hb, -⟩ := stored_total false sampleList_valid
  exact ⟨st, bytes, hb, C20_sequence_bits sampleList_valid hb,
    (C21_sequence_counters sampleList_valid hb).2.1⟩

/-! ## C26: the encoding is canonical -/

/-- C26: two valid lists with the same encoding are equal (the build modes may differ), and the
encoding does not depend on the build mode. -/
theorem C26_injective (hx : Valid xs) (hy : Valid ys) {st st' : Stats} {bx bytes : List UInt8}
    (h1 : build_sequence dbg xs [] = .ok (st, bx)) (h2 : build_sequence dbg' ys [] = .ok (st', bytes)) :
    bx = bytes ↔ xs = ys := by
  constructor
  · intro e
    subst e
    obtain ⟨_, _, e1, t1⟩ := stored_total dbg hx
    obtain ⟨_, _, e2, t2⟩ := stored_total dbg' hy
    rw [h1] at e1; rw [h2] at e2
    simp only [Except.ok.injEq, Prod.mk.injEq] at e1 e2
    obtain ⟨rfl, rfl⟩ := e1
    obtain ⟨rfl, rfl⟩ := e2
    obtain ⟨s, o1, s1⟩ := t1 (memOf 0 bx 0) 0 0 (loaded_memOf _ _ _) (readable_memOf _ _ _)
    obtain ⟨s', o2, s2⟩ := t2 (memOf 0 bx 0) 0 0 (loaded_memOf _ _ _) (readable_memOf _ _ _)
    rw [o1] at o2
    cases o2
    apply sorted_ext hx.2.1 hy.2.1
    intro v
    by_cases hv : v < 4294967296
    · have c1 := C04_contains (dbg' := true) hx s1 hv
      have c2 := C04_contains (dbg' := true) hy s2 hv
      rw [c1] at c2
      simpa using c2
    · constructor
      · intro h; have := hx.2.2 v h; omega
      · intro h; have := hy.2.2 v h; omega
  · intro e
    subst e
    obtain ⟨_, _, e1, -⟩ := build_sequence_spec (dbg := dbg) hx []
    obtain ⟨_, _, e2, -⟩ := build_sequence_spec (dbg := dbg') hx []
    rw [h1] at e1; rw [h2] at e2
    simp only [Except.ok.injEq, Prod.mk.injEq] at e1 e2
    rw [e1.2, e2.2]

/-- C26: encodings delimit themselves: an encoding followed by anything is an encoding of one list
only, and ends in one place only. -/
theorem C26_prefix_free (hx : Valid xs) (hy : Valid ys) {st st' : Stats} {bx bY t t' : List UInt8}
    (h1 : build_sequence dbg xs [] = .ok (st, bx)) (h2 : build_sequence dbg' ys [] = .ok (st', bY))
    (e : bx ++ t = bY ++ t') : xs = ys ∧ bx = bY ∧ t = t' := by
  have hxy : xs = ys := by
    obtain ⟨_, _, e1, t1⟩ := stored_total dbg hx
    obtain ⟨_, _, e2, t2⟩ := stored_total dbg' hy
    rw [h1] at e1; rw [h2] at e2
    simp only [Except.ok.injEq, Prod.mk.injEq] at e1 e2
    obtain ⟨rfl, rfl⟩ := e1
    obtain ⟨rfl, rfl⟩ := e2
    have l1 := (loaded_memOf 0 (bx ++ t) 0).append.1
    have l2 : Loaded (memOf 0 (bx ++ t) 0) 0 bY := by
      rw [e]; exact (loaded_memOf 0 (bY ++ t') 0).append.1
    obtain ⟨s, o1, s1⟩ := t1 _ 0 0 l1 (fun i hi => absurd hi (Nat.not_lt_zero i))
    obtain ⟨s', o2, s2⟩ := t2 _ 0 0 l2 (fun i hi => absurd hi (Nat.not_lt_zero i))
    rw [o1] at o2
    cases o2
    apply sorted_ext hx.2.1 hy.2.1
    intro v
    by_cases hv : v < 4294967296
    · have c1 := C04_contains (dbg' := true) hx s1 hv
      have c2 := C04_contains (dbg' := true) hy s2 hv
      rw [c1] at c2
      simpa using c2
    · constructor
      · intro h; have := hx.2.2 v h; omega
      · intro h; have := hy.2.2 v h; omega
  subst hxy
  have hb := (C26_injective hx hx h1 h2).mpr rfl
  subst hb
  exact ⟨rfl, rfl, List.append_cancel_left e⟩

example : ∃ st bx, build_sequence true [3, 5, 300, 70000] [] = .ok (st, bx) ∧
    ∀ st' bY t t', build_sequence false sampleList [] = .ok (st', bY) → bx ++ t ≠ bY ++ t' := by
  obtain ⟨st, b, h, -⟩ := stored_total true small_valid
  refine ⟨st, b, h, fun st' bY t t' h' e => ?_⟩
  have := (C26_prefix_free small_valid sampleList_valid h h' e).1
  have hl : [3, 5, 300, 70000].length = sampleList.length := congrArg _ this
  simp only [sampleList, List.length_append, List.length_range, List.length_range', List.length_cons,
    List.length_nil] at hl
  omega

/-- The encodings of some lists, one after the other. -/
inductive Encodings (dbg : Bool) : List (List Nat) → List UInt8 → Prop
  | nil : Encodings dbg [] []
  | cons {xs : List Nat} {ls : List (List Nat)} {st : Stats} {b rest : List UInt8} (hv : Valid xs)
      (h : build_sequence dbg xs [] = .ok (st, b)) (ht : Encodings dbg ls rest) :
      Encodings dbg (xs :: ls) (b ++ rest)

/-- C26: the encodings of some lists one after the other, as they are in the file of an index,
determine the lists, without the offsets that are also in the file. -/
theorem C26_concatenation {ls ls' : List (List Nat)} {b : List UInt8} (h : Encodings dbg ls b)
    (h' : Encodings dbg' ls' b) : ls = ls' := by
  have hpos : ∀ {d : Bool} {xs : List Nat} {st : Stats} {b : List UInt8}, Valid xs →
      build_sequence d xs [] = .ok (st, b) → b ≠ [] := by
    intro d xs st b hv hb e
    have := C35_exact_size hv hb
    rw [e] at this
    unfold encodedSize at this
    simp only [List.length_nil] at this
    omega
  induction h generalizing ls' with
  | nil =>
    generalize hb : ([] : List UInt8) = b at h'
    cases h' with
    | nil => rfl
    | cons hv h ht => exact absurd (List.append_eq_nil_iff.mp hb.symm).1 (hpos hv h)
  | cons hv h ht ih =>
    rename_i xs ls st bx rest
    generalize hb : bx ++ rest = b at h'
    cases h' with
    | nil => exact absurd (List.append_eq_nil_iff.mp hb).1 (hpos hv h)
    | cons hv' hh ht' =>
      obtain ⟨rfl, rfl, rfl⟩ := C26_prefix_free hv hv' h hh hb
      rw [ih ht']

example : ∃ b, Encodings true [[3, 5, 300, 70000], [7]] b ∧
    ∀ ls, Encodings false ls b → ls = [[3, 5, 300, 70000], [7]] := by
  have hv : Valid [7] := ⟨by simp, by simp, by simp⟩
  obtain ⟨st, b, h, -⟩ := stored_total true small_valid
  obtain ⟨st', b', h', -⟩ := stored_total true hv
  have he : Encodings true [[3, 5, 300, 70000], [7]] _ := .cons small_valid h (.cons hv h' .nil)
  exact ⟨_, he, fun ls hl => C26_concatenation hl he⟩

/-- C26: re-encoding what `decode` returns reproduces the bytes. -/
theorem C26_reencode (hx : Valid xs) {st : Stats} {bytes : List UInt8}
    (h1 : build_sequence dbg xs [] = .ok (st, bytes)) {m : Mem} {a : Nat} {s : SSeq}
    (hl : Loaded m a bytes) (hr : Readable m (a + bytes.length) 31) (hs : SSeq.ofAddr m a = .ok s)
    (out : List Nat) (hcap : xs.length + 23 ≤ out.length) :
    ∃ n out' st', s.decode dbg' m out 0 = .ok (n, out') ∧
      build_sequence dbg (out'.take n) [] = .ok (st', bytes) := by
  obtain ⟨o, h, e⟩ := C01_decode_take (dbg := dbg) (dbg' := dbg') hx ⟨a, st, bytes, h1, hl, hr, hs⟩ out hcap
  exact ⟨_, o, st, h, by rw [e]; exact h1⟩

example : ∃ (m : Mem) (s : SSeq) (st : Stats) (bytes : List UInt8) (n : Nat) (out' : List Nat)
    (st' : Stats), build_sequence true [3, 5, 300, 70000] [] = .ok (st, bytes) ∧
    s.decode false m (List.replicate 27 0) 0 = .ok (n, out') ∧
    build_sequence true (out'.take n) [] = .ok (st', bytes) := by
  obtain ⟨st, b, h, t⟩ := stored_total true small_valid
  obtain ⟨s, o, -⟩ := t (memOf 64 b 31) 64 31 (loaded_memOf _ _ _) (readable_memOf _ _ _)
  obtain ⟨n, o', st', h1, h2⟩ := C26_reencode (dbg' := false) small_valid h (loaded_memOf 64 b 31)
    (readable_memOf _ _ _) o (List.replicate 27 0) (by simp)
  exact ⟨_, s, st, b, n, o', st', h, h1, h2⟩

example : ∃ st st' b b', build_sequence true [3, 5, 300, 70000] [] = .ok (st, b) ∧
    build_sequence true [3, 5, 300, 70001] [] = .ok (st', b') ∧ b ≠ b' := by
  have hv : Valid [3, 5, 300, 70001] := ⟨by simp, by simp, by simp⟩
  obtain ⟨st, b, h, -⟩ := stored_total true small_valid
  obtain ⟨st', b', h', -⟩ := stored_total true hv
  refine ⟨st, st', b, b', h, h', ?_⟩
  intro e
  have := (C26_injective small_valid hv h h').mp e
  simp at this

-- two lists one after the other
example : ∃ b, Encodings true [[3, 5, 300, 70000], [3, 5, 300, 70000]] b ∧ b ≠ [] := by
  obtain ⟨st, b, h, -⟩ := stored_total true small_valid
  refine ⟨_, .cons small_valid h (.cons small_valid h .nil), ?_⟩
  intro e
  have := C35_exact_size small_valid h
  rw [(List.append_eq_nil_iff.mp e).1] at this
  unfold encodedSize at this
  simp only [List.length_nil] at this
  omega

/-! ## C28: the builder appends -/

theorem map_bind' {α β γ : Type} (x : Res α) (f : α → Res β) (g : β → γ) :
    (x >>= f).map g = x >>= fun a => (f a).map g := by
  cases x <;> rfl

theorem bind_congr' {α β : Type} {x : Res α} {f g : α → Res β} (h : ∀ a, f a = g a) :
    (x >>= f) = (x >>= g) := by
  cases x with
  | error e => rfl
  | ok a => exact h a

theorem encode_sequence_out (dbg : Bool) (xs block : List Nat) (st : Stats) (out : List UInt8) :
    encode_sequence dbg xs block st out
      = (encode_sequence dbg xs block st []).map (fun r => (r.1, r.2.1, out ++ r.2.2)) := by
  unfold encode_sequence
  rw [map_bind']
  refine bind_congr' (fun _ => ?_)
  cases xs.getLast? with
  | none => rfl
  | some u =>
    simp only
    rw [map_bind']
    refine bind_congr' (fun _ => ?_)
    rw [map_bind']
    refine bind_congr' (fun e => ?_)
    rw [map_bind']
    refine bind_congr' (fun _ => ?_)
    rw [map_bind']
    refine bind_congr' (fun p => ?_)
    simp only [pure_ok, Except.map, List.nil_append, List.append_assoc]

/-- C28, for every input (valid or not): encoding into a vector fails the same way, or succeeds with
the same statistics and the same bytes appended, as encoding into an empty one. -/
theorem C28_appends (dbg : Bool) (xs : List Nat) (out : List UInt8) :
    build_sequence dbg xs out
      = (build_sequence dbg xs []).map (fun r => (r.1, out ++ r.2)) := by
  unfold build_sequence
  rw [encode_sequence_out dbg xs [] {} out]
  cases encode_sequence dbg xs [] {} [] <;> rfl

theorem C28_appends_valid (hx : Valid xs) (out : List UInt8) :
    ∃ st bytes, build_sequence dbg xs [] = .ok (st, bytes) ∧
      build_sequence dbg xs out = .ok (st, out ++ bytes) := by
  obtain ⟨st, k, h, -⟩ := build_sequence_spec (dbg := dbg) hx []
  refine ⟨_, _, h, ?_⟩
  rw [C28_appends, h]; rfl

/-- C28: a builder object used twice still exposes the first list at `data()`. -/
theorem C28_used_twice (hx : Valid xs) (hy : Valid ys) {st st' : Stats} {b1 b2 : List UInt8}
    (h1 : build_sequence dbg xs [] = .ok (st, b1)) (h2 : build_sequence dbg ys b1 = .ok (st', b2))
    {m : Mem} {a : Nat} (hl : Loaded m a b2) :
    ∃ s, SSeq.ofAddr m a = .ok s ∧ Stored dbg xs 0 m s ∧
      ∀ v, v < 4294967296 → s.contains dbg' m v = .ok (decide (v ∈ xs)) := by
  obtain ⟨_, bytes, -, e⟩ := C28_appends_valid (dbg := dbg) hy b1
  rw [h2] at e
  simp only [Except.ok.injEq, Prod.mk.injEq] at e
  obtain ⟨-, rfl⟩ := e
  obtain ⟨_, _, e, t⟩ := stored_total dbg hx
  rw [h1] at e
  simp only [Except.ok.injEq, Prod.mk.injEq] at e
  obtain ⟨rfl, rfl⟩ := e
  obtain ⟨s, hs, hst⟩ := t m a 0 hl.append.1 (fun i hi => by omega)
  exact ⟨s, hs, hst, fun v hv => C04_contains hx hst hv⟩

example : ∃ b1 b2 st st' s, build_sequence true [3, 5, 300, 70000] [] = .ok (st, b1) ∧
    build_sequence true sampleList b1 = .ok (st', b2) ∧ SSeq.ofAddr (memOf 64 b2 0) 64 = .ok s ∧
    s.contains false (memOf 64 b2 0) 300 = .ok true := by
  obtain ⟨st, b, h, -⟩ := stored_total true small_valid
  obtain ⟨st', b', -, h'⟩ := C28_appends_valid (dbg := true) sampleList_valid b
  obtain ⟨s, h1, -, h3⟩ := C28_used_twice (dbg' := false) small_valid sampleList_valid h h'
    (loaded_memOf 64 _ 0)
  exact ⟨b, _, st, st', s, h, h', h1, by rw [h3 _ (by omega)]; simp⟩

example : ∃ st st' b1 b2, build_sequence true [3, 5, 300, 70000] [] = .ok (st, b1) ∧
    build_sequence true sampleList b1 = .ok (st', b2) := by
  obtain ⟨st, b, h, -⟩ := stored_total true small_valid
  obtain ⟨st', b', -, h'⟩ := C28_appends_valid (dbg := true) sampleList_valid b
  exact ⟨st, st', b, _, h, h'⟩

end Sliced
