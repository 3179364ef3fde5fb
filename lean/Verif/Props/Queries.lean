import Verif.Props.Stored
import Verif.Proof.Decode
import Verif.Proof.Contains
import Verif.Proof.Select
import Verif.Proof.NextGeq
import Verif.Proof.Uncompress
/-!
# Properties of decoding and of the point queries

C01, C03, C04, C05, C06, C07, C08, C22, C27 and the parts of C23 and C24 about `decode`.
`dbg` is the mode in which the library that built the sequence was compiled, `dbg'` the one of the
library that reads it; both are arbitrary.
-/
namespace Sliced

variable {dbg dbg' : Bool} {xs : List Nat} {pad : Nat} {m : Mem} {s : SSeq}

/-- C01: `decode` into any buffer with 23 spare slots returns the number of elements and writes
exactly the list that was built, at any position of the buffer. -/
theorem C01_decode (hv : Valid xs) (hs : Stored dbg xs 31 m s) (out : List Nat) (p : Nat)
    (hcap : p + xs.length + 23 ≤ out.length) :
    ∃ out', s.decode dbg' m out p = .ok (xs.length, out') ∧ Wrote out p xs 23 out' := by
  have h := SSeq.decode_spec (dbg := dbg') (hs.repr hv) (out := out) (p := p)
    (by rw [seqElems_chunksOf hv]; exact hcap)
  rwa [seqElems_chunksOf hv] at h

example : ∃ m s out', Stored true [3, 5, 300, 70000] 31 m s ∧
    s.decode false m (List.replicate 40 7) 10 = .ok (4, out') ∧
    Wrote (List.replicate 40 7) 10 [3, 5, 300, 70000] 23 out' := by
  obtain ⟨m, s, h⟩ := stored_exists true small_valid 31
  obtain ⟨o, h1, h2⟩ := C01_decode (dbg' := false) small_valid h (List.replicate 40 7) 10 (by simp)
  exact ⟨m, s, o, h, h1, h2⟩

/-- C01, the same as a statement about the first `xs.length` slots. -/
theorem C01_decode_take (hv : Valid xs) (hs : Stored dbg xs 31 m s) (out : List Nat)
    (hcap : xs.length + 23 ≤ out.length) :
    ∃ out', s.decode dbg' m out 0 = .ok (xs.length, out') ∧ out'.take xs.length = xs := by
  obtain ⟨out', h1, h2⟩ := C01_decode (dbg' := dbg') hv hs out 0 (by omega)
  refine ⟨out', h1, ?_⟩
  apply List.ext_getElem?
  intro i
  by_cases hi : i < xs.length
  · rw [List.getElem?_take_of_lt hi]
    simpa using h2.2.2.1 i hi
  · rw [List.getElem?_eq_none (by simp; omega), List.getElem?_eq_none (by omega)]

example : ∃ m s out', Stored false sampleList 31 m s ∧
    s.decode true m (List.replicate (sampleList.length + 23) 7) 0 = .ok (sampleList.length, out') ∧
    out'.take sampleList.length = sampleList := by
  obtain ⟨m, s, h⟩ := stored_exists false sampleList_valid 31
  obtain ⟨o, h1, h2⟩ := C01_decode_take (dbg' := true) sampleList_valid h
    (List.replicate (sampleList.length + 23) 7) (by rw [List.length_replicate]; exact Nat.le_refl _)
  exact ⟨m, s, o, h, h1, h2⟩

/-- C03 -/
theorem C03_cardinality (hv : Valid xs) (hs : Stored dbg xs pad m s) :
    s.cardinality m = .ok xs.length ∧ s.size m = .ok xs.length := by
  have h := SSeq.cardinality_spec (hs.repr hv)
  rw [seqElems_chunksOf hv] at h
  exact ⟨h, h⟩

example : ∃ m s, Stored true sampleList 0 m s ∧ s.size m = .ok sampleList.length := by
  obtain ⟨m, s, h⟩ := stored_exists true sampleList_valid 0
  exact ⟨m, s, h, (C03_cardinality sampleList_valid h).2⟩

/-- C04 -/
theorem C04_contains (hv : Valid xs) (hs : Stored dbg xs pad m s) {v : Nat} (h : v < 4294967296) :
    s.contains dbg' m v = .ok (decide (v ∈ xs)) := by
  have h := SSeq.contains_spec (dbg := dbg') (hs.repr hv) h
  rwa [seqElems_chunksOf hv] at h

example : ∃ m s, Stored true [3, 5, 300, 70000] 0 m s ∧ s.contains false m 300 = .ok true ∧
    s.contains false m 301 = .ok false ∧ s.contains false m 4294967295 = .ok false := by
  obtain ⟨m, s, h⟩ := stored_exists true small_valid 0
  refine ⟨m, s, h, ?_, ?_, ?_⟩
  · rw [C04_contains small_valid h (by omega)]; simp
  · rw [C04_contains small_valid h (by omega)]; simp
  · rw [C04_contains small_valid h (by omega)]; simp

/-- C05, rank in range -/
theorem C05_select (hv : Valid xs) (hs : Stored dbg xs pad m s) {r : Nat} (h : r < xs.length)
    (value : Nat) : s.select dbg' m r value = .ok (true, xs[r]) := by
  have hlt : xs.length ≤ 4294901760 := by
    have := sorted_length_le' hv.2.1 hv.2.2
    omega
  have h' := SSeq.select_spec (dbg := dbg') (hs.repr hv) (r := r) (by omega) value
  rwa [seqElems_chunksOf hv, List.getElem?_eq_getElem h] at h'

/-- C05, rank out of range: false is returned and `value` keeps its content -/
theorem C05_select_out (hv : Valid xs) (hs : Stored dbg xs pad m s) {r : Nat} (h : xs.length ≤ r)
    (h32 : r < 4294967296) (value : Nat) : s.select dbg' m r value = .ok (false, value) := by
  have h' := SSeq.select_spec (dbg := dbg') (hs.repr hv) h32 value
  rwa [seqElems_chunksOf hv, List.getElem?_eq_none h] at h'

example : ∃ m s, Stored true [3, 5, 300, 70000] 0 m s ∧ s.select false m 2 9 = .ok (true, 300) ∧
    s.select false m 4 9 = .ok (false, 9) := by
  obtain ⟨m, s, h⟩ := stored_exists true small_valid 0
  exact ⟨m, s, h, C05_select small_valid h (by simp) 9,
    C05_select_out small_valid h (by simp) (by omega) 9⟩

/-- C06: what `next_geq` returns, when there is an element `≥ v` -/
theorem C06_next_geq (hv : Valid xs) (hs : Stored dbg xs pad m s) {v x : Nat} (h : v < 4294967296)
    (hx : x ∈ xs) (hge : v ≤ x) (hleast : ∀ y ∈ xs, v ≤ y → x ≤ y) :
    s.next_geq dbg' m v = .ok x := by
  have h' := SSeq.next_geq_spec (dbg := dbg') (hs.repr hv) h
  rw [seqElems_chunksOf hv] at h'
  rw [h']
  congr 1
  unfold geq
  cases e : xs.find? (fun y => decide (v ≤ y)) with
  | none =>
    have := List.find?_eq_none.mp e x hx
    simp at this; omega
  | some y =>
    have hy := List.mem_of_find?_eq_some e
    have hp := List.find?_some e
    simp at hp
    have h1 := hleast y hy hp
    rw [List.find?_eq_some_iff_append] at e
    obtain ⟨-, as, bs, rfl, h3⟩ := e
    have h2 : y ≤ x := by
      rcases List.mem_append.mp hx with hx | hx
      · have := h3 x hx; simp at this; omega
      · rcases List.mem_cons.mp hx with rfl | hx
        · exact Nat.le_refl _
        · have := (List.pairwise_cons.mp (List.pairwise_append.mp hv.2.1).2.1).1 x hx
          omega
    show y = x
    omega

/-- C06: what `next_geq` returns, when there is none -/
theorem C06_next_geq_none (hv : Valid xs) (hs : Stored dbg xs pad m s) {v : Nat}
    (h : v < 4294967296) (hnone : ∀ y ∈ xs, y < v) :
    s.next_geq dbg' m v = .ok 4294967295 := by
  have h' := SSeq.next_geq_spec (dbg := dbg') (hs.repr hv) h
  rw [seqElems_chunksOf hv] at h'
  rw [h']
  unfold geq
  rw [List.find?_eq_none.mpr]
  · rfl
  · intro x hx
    have := hnone x hx
    simp; omega

/-- C06: `not_found` is returned only when there is no element `≥ v`. -/
theorem C06_next_geq_iff (hv : Valid xs) (hs : Stored dbg xs pad m s) {v : Nat}
    (h : v < 4294967296) :
    s.next_geq dbg' m v = .ok 4294967295 ↔ ∀ y ∈ xs, y < v := by
  refine ⟨?_, C06_next_geq_none hv hs h⟩
  intro e
  have h' := SSeq.next_geq_spec (dbg := dbg') (hs.repr hv) h
  rw [seqElems_chunksOf hv, e] at h'
  unfold geq at h'
  cases e2 : xs.find? (fun y => decide (v ≤ y)) with
  | none =>
    intro y hy
    have := List.find?_eq_none.mp e2 y hy
    simp at this; omega
  | some y =>
    rw [e2] at h'
    have := hv.2.2 y (List.mem_of_find?_eq_some e2)
    simp at h'; omega

example : ∃ m s, Stored true [3, 5, 300, 70000] 0 m s ∧ s.next_geq false m 70000 ≠ .ok 4294967295 ∧
    s.next_geq false m 70001 = .ok 4294967295 := by
  obtain ⟨m, s, h⟩ := stored_exists true small_valid 0
  exact ⟨m, s, h, fun e => by simpa using (C06_next_geq_iff small_valid h (by omega)).mp e,
    (C06_next_geq_iff small_valid h (by omega)).mpr (by simp)⟩

example : ∃ m s, Stored true [3, 5, 300, 70000] 0 m s ∧ s.next_geq false m 6 = .ok 300 ∧
    s.next_geq false m 70001 = .ok 4294967295 := by
  obtain ⟨m, s, h⟩ := stored_exists true small_valid 0
  exact ⟨m, s, h, C06_next_geq small_valid h (by omega) (by simp) (by omega) (by simp),
    C06_next_geq_none small_valid h (by omega) (by simp)⟩

theorem bitOf_eq (out : List Nat) (x : Nat) : bitOf out x = bufBit out x := by
  unfold bitOf bufBit
  cases out[x / 64]? <;> simp

theorem bitOf_word {out : List Nat} {i w j : Nat} (h : out[i]? = some w) (hj : j < 64) :
    bitOf out (64 * i + j) = w.testBit j := by
  unfold bitOf
  rw [show (64 * i + j) / 64 = i by omega, show (64 * i + j) % 64 = j by omega, h]; rfl

theorem chunksOf_id {xs : List Nat} (hv : Valid xs) (i : Nat) :
    (∃ c ∈ chunksOf xs, c.id = i) ↔ ∃ x ∈ xs, x / 65536 = i := by
  have hw := chunksOf_wf hv.2.1
  constructor
  · rintro ⟨c, hc, rfl⟩
    have hne := Body.WF.ne_nil (hw.2 c hc).2
    obtain ⟨y, hy⟩ := List.exists_mem_of_ne_nil _ hne
    have hlt := Body.WF.bound (hw.2 c hc).2 y hy
    refine ⟨c.id * 65536 + y, ?_, by omega⟩
    rw [← seqElems_chunksOf hv, mem_seqElems hw]
    exact ⟨c, hc, by omega, by rw [show (c.id * 65536 + y) % 65536 = y by omega]; exact hy⟩
  · rintro ⟨x, hx, rfl⟩
    rw [← seqElems_chunksOf hv, mem_seqElems hw] at hx
    obtain ⟨c, hc, h1, -⟩ := hx
    exact ⟨c, hc, h1⟩

/-- C08: `uncompress` on a buffer with arbitrary contents rewrites the 1024-word window of each
non-empty slice to the characteristic bitmap of that slice and leaves all other words alone. -/
theorem C08_uncompress (hv : Valid xs) (hs : Stored dbg xs pad m s) (out : List Nat)
    (hw : ∀ w ∈ out, w < 18446744073709551616)
    (hcap : ∀ x ∈ xs, (x / 65536 + 1) * 1024 ≤ out.length) :
    ∃ out', s.uncompress dbg' m out = .ok (xs.length, out') ∧ out'.length = out.length ∧
      (∀ w ∈ out', w < 18446744073709551616) ∧
      (∀ x ∈ xs, ∀ v, v / 65536 = x / 65536 → bitOf out' v = decide (v ∈ xs)) ∧
      (∀ i, (∀ x ∈ xs, x / 65536 ≠ i / 1024) → out'[i]? = out[i]?) := by
  have hr := hs.repr hv
  have hcap' : ∀ c ∈ chunksOf xs, (c.id + 1) * 1024 ≤ out.length := by
    intro c hc
    obtain ⟨x, hx, h⟩ := (chunksOf_id hv c.id).mp ⟨c, hc, rfl⟩
    rw [← h]; exact hcap x hx
  obtain ⟨out', h1, h2, h3⟩ := SSeq.uncompress_spec (dbg := dbg') hr (bufIs_self hw) hcap'
  rw [seqElems_chunksOf hv] at h1 h3
  simp only [chunksOf_id hv] at h3
  refine ⟨out', h1, h2, ?_, ?_, ?_⟩
  · intro w hw'
    obtain ⟨i, hi⟩ := List.mem_iff_getElem?.mp hw'
    exact (h3 i w hi).1
  · intro x hx v hvx
    have hi : v / 64 < out'.length := by rw [h2]; have := hcap x hx; omega
    have he := List.getElem?_eq_getElem hi
    have := (h3 _ _ he).2 (v % 64) (by omega)
    rw [show 64 * (v / 64) + v % 64 = v by omega] at this
    replace this : _ = if _ then _ else _ := this
    rw [if_pos ⟨x, hx, hvx.symm⟩] at this
    rw [← this, ← bitOf_word he (by omega), show 64 * (v / 64) + v % 64 = v by omega]
  · intro i hi
    by_cases hl : i < out.length
    · have e1 := List.getElem?_eq_getElem hl
      have e2 := List.getElem?_eq_getElem (l := out') (i := i) (by omega)
      rw [e1, e2]
      congr 1
      apply Nat.eq_of_testBit_eq
      intro j
      by_cases hj : j < 64
      · rw [(h3 _ _ e2).2 j hj]
        show (if _ then _ else _) = _
        rw [if_neg, ← bitOf_eq, bitOf_word e1 hj]
        rintro ⟨x, hx, hxi⟩
        exact hi x hx (by omega)
      · have hp : (18446744073709551616 : Nat) ≤ 2 ^ j := by
          rw [show (18446744073709551616 : Nat) = 2 ^ 64 from rfl]
          exact Nat.pow_le_pow_right (by omega) (by omega)
        have b1 := (h3 _ _ e2).1
        have b2 := hw _ (List.getElem_mem hl)
        rw [Nat.testBit_lt_two_pow (by omega), Nat.testBit_lt_two_pow (by omega)]
    · rw [List.getElem?_eq_none (by omega), List.getElem?_eq_none (by omega)]

/-- C07: on a zeroed buffer the result is the characteristic bitmap. -/
theorem C07_uncompress_zeroed (hv : Valid xs) (hs : Stored dbg xs pad m s) (n : Nat)
    (hcap : ∀ x ∈ xs, (x / 65536 + 1) * 1024 ≤ n) :
    ∃ out', s.uncompress dbg' m (List.replicate n 0) = .ok (xs.length, out') ∧ out'.length = n ∧
      (∀ w ∈ out', w < 18446744073709551616) ∧ ∀ v, bitOf out' v = decide (v ∈ xs) := by
  obtain ⟨out', h1, h2, h3, h4, h5⟩ := C08_uncompress (dbg' := dbg') hv hs (List.replicate n 0)
    (by intro w hw; rw [(List.mem_replicate.mp hw).2]; omega) (by rwa [List.length_replicate])
  rw [List.length_replicate] at h2
  refine ⟨out', h1, h2, h3, ?_⟩
  intro v
  by_cases h : ∃ x ∈ xs, x / 65536 = v / 65536
  · obtain ⟨x, hx, e⟩ := h
    exact h4 x hx v e.symm
  · have e := h5 (v / 64) (fun x hx e => h ⟨x, hx, by omega⟩)
    unfold bitOf
    rw [e, List.getElem?_replicate, decide_eq_false (fun hx => h ⟨v, hx, rfl⟩)]
    split <;> simp

/-- C08, stale bits: a set bit in an empty slice survives `uncompress`. -/
theorem C08_stale (hv : Valid xs) (hs : Stored dbg xs pad m s) (out : List Nat)
    (hw : ∀ w ∈ out, w < 18446744073709551616)
    (hcap : ∀ x ∈ xs, (x / 65536 + 1) * 1024 ≤ out.length) {v : Nat}
    (hslice : ∀ x ∈ xs, x / 65536 ≠ v / 65536) :
    ∃ out', s.uncompress dbg' m out = .ok (xs.length, out') ∧ bitOf out' v = bitOf out v := by
  obtain ⟨out', h1, -, -, -, h5⟩ := C08_uncompress (dbg' := dbg') hv hs out hw hcap
  refine ⟨out', h1, ?_⟩
  unfold bitOf
  rw [h5 (v / 64) (fun x hx e => hslice x hx (by omega))]

example : ∃ m s out', Stored true [3, 131072] 0 m s ∧
    s.uncompress false m (List.replicate 3072 2) = .ok (2, out') ∧
    bitOf out' 65537 = bitOf (List.replicate 3072 2) 65537 := by
  have hv : Valid [3, 131072] := ⟨by simp, by simp, by simp⟩
  obtain ⟨m, s, h⟩ := stored_exists true hv 0
  obtain ⟨o, h1, h2⟩ := C08_stale (dbg' := false) (v := 65537) hv h (List.replicate 3072 2)
    (by intro w hw; rw [(List.mem_replicate.mp hw).2]; omega)
    (by rw [List.length_replicate]; simp) (by simp)
  exact ⟨m, s, o, h, h1, h2⟩

example : ∃ m s out', Stored true [3, 5, 300, 70000] 0 m s ∧
    s.uncompress false m (List.replicate 2048 0) = .ok (4, out') ∧
    bitOf out' 300 = true ∧ bitOf out' 301 = false := by
  obtain ⟨m, s, h⟩ := stored_exists true small_valid 0
  obtain ⟨o, h1, -, -, h4⟩ := C07_uncompress_zeroed (dbg' := false) small_valid h 2048 (by simp)
  exact ⟨m, s, o, h, h1, by rw [h4]; simp, by rw [h4]; simp⟩

/-- a stale bit of slice 1 survives when the list has elements in slices 0 and 2 only -/
example : ∃ m s out', Stored true [3, 131072] 0 m s ∧
    s.uncompress false m (List.replicate 3072 18446744073709551615) = .ok (2, out') ∧
    bitOf out' 70000 = true ∧ bitOf out' 4 = false := by
  have hv : Valid [3, 131072] := ⟨by simp, by simp, by simp⟩
  obtain ⟨m, s, h⟩ := stored_exists true hv 0
  obtain ⟨o, h1, -, -, h4, h5⟩ := C08_uncompress (dbg' := false) hv h
    (List.replicate 3072 18446744073709551615)
    (by intro w hw; rw [(List.mem_replicate.mp hw).2]; omega)
    (by rw [List.length_replicate]; simp)
  refine ⟨m, s, o, h, h1, ?_, ?_⟩
  · unfold bitOf
    rw [h5 _ (by simp), List.getElem?_replicate, if_pos (by omega)]
    rfl
  · rw [h4 3 (by simp) 4 (by omega)]; simp

/-- C22: with only the encoded bytes readable and nothing else in memory, the point queries run
without undefined behaviour and give the right answers. -/
theorem C22_no_overread (hv : Valid xs) {st : Stats} {bytes : List UInt8}
    (hb : build_sequence dbg xs [] = .ok (st, bytes)) (a : Nat) :
    ∃ s, SSeq.ofAddr (memOf a bytes 0) a = .ok s ∧
      s.cardinality (memOf a bytes 0) = .ok xs.length ∧
      (∀ v, v < 4294967296 → s.contains dbg' (memOf a bytes 0) v = .ok (decide (v ∈ xs))) ∧
      (∀ r, r < 4294967296 → ∀ value,
        s.select dbg' (memOf a bytes 0) r value = .ok (xs[r]?.isSome, xs[r]?.getD value)) ∧
      (∀ v, v < 4294967296 → s.next_geq dbg' (memOf a bytes 0) v
        = .ok ((xs.find? (v ≤ ·)).getD 4294967295)) ∧
      (∀ out, (∀ w ∈ out, w < 18446744073709551616) →
        (∀ x ∈ xs, (x / 65536 + 1) * 1024 ≤ out.length) →
        ∃ out', s.uncompress dbg' (memOf a bytes 0) out = .ok (xs.length, out')) := by
  obtain ⟨st', bytes', e, ht⟩ := stored_total dbg hv
  rw [hb] at e
  simp only [Except.ok.injEq, Prod.mk.injEq] at e
  obtain ⟨rfl, rfl⟩ := e
  obtain ⟨s, hs, hst⟩ := ht (memOf a bytes 0) a 0 (loaded_memOf _ _ _) (readable_memOf _ _ _)
  refine ⟨s, hs, (C03_cardinality hv hst).1, fun v h => C04_contains hv hst h, ?_, ?_, ?_⟩
  · intro r h value
    by_cases hr : r < xs.length
    · rw [C05_select hv hst hr, List.getElem?_eq_getElem hr]; rfl
    · rw [C05_select_out hv hst (by omega) h, List.getElem?_eq_none (by omega)]; rfl
  · intro v h
    have h' := SSeq.next_geq_spec (dbg := dbg') (hst.repr hv) h
    rwa [seqElems_chunksOf hv] at h'
  · intro out hw hcap
    obtain ⟨o, h, -⟩ := C08_uncompress (dbg' := dbg') hv hst out hw hcap
    exact ⟨o, h⟩

example : ∃ st bytes s, build_sequence true sampleList [] = .ok (st, bytes) ∧
    SSeq.ofAddr (memOf 64 bytes 0) 64 = .ok s ∧
    s.cardinality (memOf 64 bytes 0) = .ok sampleList.length := by
  obtain ⟨st, bytes, h, -⟩ := stored_total true sampleList_valid
  obtain ⟨s, h1, h2, -⟩ := C22_no_overread (dbg' := false) sampleList_valid h 64
  exact ⟨st, bytes, s, h, h1, h2⟩

example : ∃ st bytes, build_sequence true sampleList [] = .ok (st, bytes) := by
  obtain ⟨st, bytes, h, -⟩ := stored_total true sampleList_valid
  exact ⟨st, bytes, h⟩

/-- C27: `select(i)` is contained, is its own `next_geq`, and `select` is strictly increasing. -/
theorem C27_consistent (hv : Valid xs) (hs : Stored dbg xs pad m s) {n i : Nat}
    (hn : s.size m = .ok n) (hi : i < n) (value : Nat) :
    ∃ x, s.select dbg' m i value = .ok (true, x) ∧ s.contains dbg' m x = .ok true ∧
      s.next_geq dbg' m x = .ok x ∧
      (i + 1 < n → ∃ y, s.select dbg' m (i + 1) value = .ok (true, y) ∧ x < y ∧
        s.next_geq dbg' m (x + 1) = .ok y) ∧
      (i + 1 = n → s.next_geq dbg' m (x + 1) = .ok 4294967295) := by
  rw [(C03_cardinality hv hs).2] at hn
  cases hn
  have hx : xs[i] < 4294901760 := hv.2.2 _ (List.getElem_mem hi)
  have hmem := List.getElem_mem hi
  have hord : ∀ a b (ha : a < xs.length) (hb : b < xs.length), a < b → xs[a] < xs[b] :=
    fun a b ha hb h => List.pairwise_iff_getElem.mp hv.2.1 a b ha hb h
  refine ⟨xs[i], C05_select hv hs hi value, ?_, ?_, ?_, ?_⟩
  · rw [C04_contains hv hs (by omega)]; simp
  · exact C06_next_geq hv hs (by omega) hmem (Nat.le_refl _) (fun y _ h => h)
  · intro h
    refine ⟨xs[i + 1], C05_select hv hs h value, hord _ _ _ _ (by omega), ?_⟩
    refine C06_next_geq hv hs (by omega) (List.getElem_mem h)
      (by have := hord i (i + 1) hi h (by omega); omega) ?_
    intro y hy hle
    obtain ⟨k, hk, rfl⟩ := List.mem_iff_getElem.mp hy
    rcases Nat.lt_or_ge i k with hik | hik
    · rcases Nat.lt_or_ge (i + 1) k with hik2 | hik2
      · exact Nat.le_of_lt (hord _ _ _ _ hik2)
      · have : k = i + 1 := by omega
        subst this; exact Nat.le_refl _
    · exfalso
      rcases Nat.lt_or_ge k i with hki | hki
      · have := hord k i hk hi hki; omega
      · have : k = i := by omega
        subst this; omega
  · intro h
    refine C06_next_geq_none hv hs (by omega) ?_
    intro y hy
    obtain ⟨k, hk, rfl⟩ := List.mem_iff_getElem.mp hy
    rcases Nat.lt_or_ge k i with hki | hki
    · have := hord k i hk hi hki; omega
    · have : k = i := by omega
      subst this; omega

example : ∃ m s x y, Stored true [3, 5, 300, 70000] 0 m s ∧ s.select false m 1 9 = .ok (true, x) ∧
    s.select false m 2 9 = .ok (true, y) ∧ x < y ∧ s.next_geq false m (x + 1) = .ok y := by
  obtain ⟨m, s, h⟩ := stored_exists true small_valid 0
  obtain ⟨x, h1, -, -, h4, -⟩ := C27_consistent (dbg' := false) small_valid h
    (C03_cardinality small_valid h).2 (i := 1) (by simp) 9
  obtain ⟨y, h5, h6, h7⟩ := h4 (by simp)
  exact ⟨m, s, x, y, h, h1, h5, h6, h7⟩

/-- C27: membership and `next_geq` agree. -/
theorem C27_contains_iff_next_geq (hv : Valid xs) (hs : Stored dbg xs pad m s) {v : Nat}
    (h : v < 4294967295) :
    s.contains dbg' m v = .ok true ↔ s.next_geq dbg' m v = .ok v := by
  rw [C04_contains hv hs (by omega)]
  constructor
  · intro e
    have hm : v ∈ xs := by simpa using e
    exact C06_next_geq hv hs (by omega) hm (Nat.le_refl _) (fun y _ h => h)
  · intro e
    have h' := SSeq.next_geq_spec (dbg := dbg') (hs.repr hv) (v := v) (by omega)
    rw [seqElems_chunksOf hv, e] at h'
    unfold geq at h'
    cases e2 : xs.find? (fun y => decide (v ≤ y)) with
    | none => rw [e2] at h'; simp at h'; omega
    | some y =>
      rw [e2] at h'
      have := List.mem_of_find?_eq_some e2
      simp at h'
      subst h'
      simpa using this

example : ∃ m s, Stored true [3, 5, 300, 70000] 0 m s ∧ s.next_geq false m 300 = .ok 300 := by
  obtain ⟨m, s, h⟩ := stored_exists true small_valid 0
  exact ⟨m, s, h, (C27_contains_iff_next_geq small_valid h (by omega)).mp (by
    rw [C04_contains small_valid h (by omega)]; simp)⟩

example : ∃ m s, Stored true [3, 5, 300, 70000] 0 m s ∧ s.size m = .ok 4 := by
  obtain ⟨m, s, h⟩ := stored_exists true small_valid 0
  exact ⟨m, s, h, (C03_cardinality small_valid h).2⟩

end Sliced
