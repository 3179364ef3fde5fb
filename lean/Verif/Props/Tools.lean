import Verif.Proof.Tools
import Verif.Props.Index
import Verif.Props.Bounds
/-!
# C40-C44: the command-line programs in src/

`dbg` is the mode the index was built in, `dbg'` the one the program runs in.
-/
namespace Sliced

variable {pad : Nat}
variable {dbg dbg' : Bool} {params : Params} {univ a : Nat} {lists : List (List Nat)} {m : Mem}

/-- The file of the index built from a collection is mapped at address `a`, and `pad` more bytes
(31 unless said otherwise) can be read behind it. -/
def FileAt (dbg : Bool) (params : Params) (univ : Nat) (lists : List (List Nat)) (m : Mem) (a : Nat)
    (pad : Nat := 31) : Prop :=
  GoodCollection params univ lists ∧ ∃ offs seqs st,
    build_index dbg params (collection univ lists) = .ok (offs, seqs, st) ∧
    (save_index offs seqs).length < 18446744073709551616 ∧ Loaded m a (save_index offs seqs) ∧
    Readable m (a + (save_index offs seqs).length) pad

/-- what a program sees of the file -/
structure Indexed (dbg : Bool) (ks : List (List Nat)) (univ : Nat) (m : Mem) (a : Nat)
    (idx : SIndex) (pad : Nat := 31) : Prop where
  map : SIndex.mmap m a = .ok idx
  univ : idx.univ = univ
  size : idx.size = ks.length
  valid : ∀ xs ∈ ks, Valid xs
  get : ∀ i xs, ks[i]? = some xs → ∀ dbg', ∃ s bytes, idx.get dbg' m i = .ok s ∧
    bytes.length = encodedSize xs ∧ StoredAt dbg xs pad m (a + startAt ks i) bytes s

theorem FileAt.indexed {pad : Nat} (h : FileAt dbg params univ lists m a pad) :
    ∃ idx, Indexed dbg (keptLists params lists) univ m a idx pad := by
  obtain ⟨hg, offs, seqs, st, hb, hsz, hl, hr⟩ := h
  obtain ⟨idx, h1, h2, h3, h4⟩ := C18_round_trip hg hb hsz hl hr
  exact ⟨idx, h1, h2, h3, keptLists_valid hg, h4⟩

/-- there are such files -/
theorem fileAt_exists (hg : GoodCollection params univ lists)
    (hsz : 16 + 8 * ((keptLists params lists).length + 1)
      + ((keptLists params lists).map encodedSize).sum < 18446744073709551616) (a : Nat) :
    ∃ m, FileAt dbg params univ lists m a := by
  obtain ⟨st', e, -⟩ := build_index_spec (dbg := dbg) hg
  refine ⟨memOf a _ 31, hg, _, _, _, e, ?_, loaded_memOf _ _ _, readable_memOf _ _ _⟩
  rw [save_index_length, List.length_cons, startsOf, startsFrom_length, allBytes_length]
  exact hsz

theorem encodedSize_le {xs : List Nat} (hv : Valid xs) : encodedSize xs ≤ 2 + 12 * xs.length := by
  obtain ⟨st, k, e, -⟩ := build_sequence_spec (dbg := true) hv []
  rw [← C35_exact_size hv e]
  exact (C25_size_ints hv e).1

theorem small_file (f : List Nat → Nat) {ks : List (List Nat)} (hk : ks.length ≤ 10)
    (h : ∀ xs ∈ ks, f xs ≤ 100) :
    16 + 8 * (ks.length + 1) + (ks.map f).sum < 18446744073709551616 := by
  have : (ks.map f).sum ≤ 100 * ks.length := by
    clear hk
    induction ks with
    | nil => simp
    | cons xs ks ih =>
      have h1 := h xs List.mem_cons_self
      have h2 := ih (fun ys hy => h ys (List.mem_cons_of_mem _ hy))
      rw [List.map_cons, List.sum_cons, List.length_cons]
      omega
  omega

/-- a few short lists make a file -/
theorem fileAt_small (hg : GoodCollection params univ lists)
    (hk : (keptLists params lists).length ≤ 10)
    (hl : ∀ xs ∈ keptLists params lists, xs.length ≤ 8) (a : Nat) :
    ∃ m, FileAt dbg params univ lists m a := by
  refine fileAt_exists hg (small_file _ hk ?_) a
  intro xs hx
  have h1 := encodedSize_le (keptLists_valid hg xs hx)
  have h2 := hl xs hx
  omega

theorem sampleFile (dbg : Bool) (a : Nat) :
    ∃ m, FileAt dbg { size := 1 } 80000 sampleColl m a :=
  fileAt_small sampleColl_good (by decide) (by decide) a

/-! ## C40: programs that visit all sequences -/

/-- the sum of the lengths of the first `i` lists -/
theorem lengths_step {ks : List (List Nat)} {i : Nat} {xs : List Nat} (h : ks[i]? = some xs) :
    ((ks.map List.length).take (i + 1)).sum = ((ks.map List.length).take i).sum + xs.length :=
  sum_take_succ (by rw [List.getElem?_map, h]; rfl)

theorem take_all (ks : List (List Nat)) :
    ((ks.map List.length).take ks.length).sum = (ks.map List.length).sum := by
  rw [List.take_of_length_le (by rw [List.length_map]; exact Nat.le_refl _)]

/-- C40: `cardinality` prints the number of integers in the index (modulo the 64-bit counter, which
is increased in each of the 11 runs). -/
theorem C40_cardinality (h : FileAt dbg params univ lists m a pad) :
    tool_cardinality dbg' m a
      = .ok (11 * ((keptLists params lists).map List.length).sum % 18446744073709551616 / 11) := by
  obtain ⟨idx, h⟩ := h.indexed
  generalize keptLists params lists = ks at *
  unfold tool_cardinality
  rw [h.map]
  simp only [ok_bind, h.size]
  obtain ⟨t, e, ht⟩ := forRange_spec
    (fun r t => t = r * (ks.map List.length).sum % 18446744073709551616) 11 0 0 (by simp)
    (body := fun _ total =>
      forRange (fun i total => do
        let sequence ← idx.get dbg' m i
        let c ← sequence.cardinality m
        return u64 (total + c)) ks.length 0 total) (by
      intro r t _ _ ht
      obtain ⟨t', e, ht'⟩ := forRange_spec
        (fun i t => t = (r * (ks.map List.length).sum + ((ks.map List.length).take i).sum)
          % 18446744073709551616) ks.length 0 t (by simp [ht])
        (body := fun i total => do
          let sequence ← idx.get dbg' m i
          let c ← sequence.cardinality m
          return u64 (total + c)) (by
          intro i t _ hi ht
          have hx : ks[i]? = some ks[i] := List.getElem?_eq_getElem (by omega)
          obtain ⟨s, b, hs, -, hst⟩ := h.get i _ hx dbg'
          refine ⟨_, by rw [hs]; simp only [ok_bind]; rw [(C03_cardinality
            (h.valid _ (List.mem_of_getElem? hx)) hst.stored).1]; rfl, ?_⟩
          rw [ht, u64_add, lengths_step hx, Nat.add_assoc])
      refine ⟨t', e, ?_⟩
      rw [Nat.zero_add, take_all] at ht'
      rw [ht', Nat.succ_mul])
  rw [e, ht]; rfl

/-- C40: in particular the number of integers, if eleven times that number fits the counter. -/
theorem C40_cardinality_small (h : FileAt dbg params univ lists m a pad)
    (hs : 11 * ((keptLists params lists).map List.length).sum < 18446744073709551616) :
    tool_cardinality dbg' m a = .ok ((keptLists params lists).map List.length).sum := by
  rw [C40_cardinality h, Nat.mod_eq_of_lt hs, Nat.mul_div_cancel_left _ (by omega)]

/-- C40: `decode` prints the number of sequences and of integers, provided that each list has at
least 23 elements less than the universe size (the number of slots of the output buffer). -/
theorem C40_decode (h : FileAt dbg params univ lists m a)
    (hcap : ∀ xs ∈ keptLists params lists, xs.length + 23 ≤ univ) :
    tool_decode dbg' m a = .ok ((keptLists params lists).length,
      ((keptLists params lists).map List.length).sum % 18446744073709551616) := by
  obtain ⟨idx, h⟩ := h.indexed
  generalize keptLists params lists = ks at *
  unfold tool_decode
  rw [h.map]
  simp only [ok_bind, h.size, h.univ]
  obtain ⟨⟨t, o⟩, e, ht, -⟩ := forRange_spec
    (fun i (s : Nat × List Nat) => s.1 = ((ks.map List.length).take i).sum % 18446744073709551616 ∧
      s.2.length = univ) ks.length 0 (0, List.replicate univ 0)
    ⟨by simp, List.length_replicate⟩
    (body := fun i (s : Nat × List Nat) => do
      let sequence ← idx.get dbg' m i
      let (decoded, out) ← sequence.decode dbg' m s.2
      return (u64 (s.1 + decoded), out)) (by
      rintro i ⟨t, o⟩ _ hi ⟨ht, ho⟩
      have hx : ks[i]? = some ks[i] := List.getElem?_eq_getElem (by omega)
      have hm := List.mem_of_getElem? hx
      obtain ⟨s, b, hs, -, hst⟩ := h.get i _ hx dbg'
      obtain ⟨o', e, w⟩ := C01_decode (dbg' := dbg') (h.valid _ hm) hst.stored o 0 (by
        have := hcap _ hm
        simp only at ho
        omega)
      refine ⟨_, by rw [hs]; simp only [ok_bind]; rw [e]; rfl, ?_, w.1.trans ho⟩
      simp only at ht ⊢
      rw [ht, u64_add, lengths_step hx])
  rw [e]
  simp only at ht
  rw [Nat.zero_add, take_all] at ht
  rw [ht]; rfl

theorem bitmap_words_eq (h : univ < 4294901760) : bitmap_words univ = (univ / 65536 + 1) * 1024 := by
  unfold bitmap_words
  rw [num_chunks_eq (by omega)]
  simp only [chunk_size, u32]
  omega

/-- C40: `uncompress` prints the number of sequences and of integers, provided that the universe is
what its name says and below 4294901760. -/
theorem C40_uncompress (h : FileAt dbg params univ lists m a pad) (hu : univ < 4294901760)
    (hmax : ∀ xs ∈ keptLists params lists, ∀ x ∈ xs, x ≤ univ) :
    tool_uncompress dbg' m a = .ok ((keptLists params lists).length,
      ((keptLists params lists).map List.length).sum % 18446744073709551616) := by
  obtain ⟨idx, h⟩ := h.indexed
  generalize keptLists params lists = ks at *
  unfold tool_uncompress
  rw [h.map]
  simp only [ok_bind, h.size, h.univ]
  obtain ⟨⟨t, o⟩, e, ht, -⟩ := forRange_spec
    (fun i (s : Nat × List Nat) => s.1 = ((ks.map List.length).take i).sum % 18446744073709551616 ∧
      s.2.length = bitmap_words univ ∧ ∀ w ∈ s.2, w < 18446744073709551616)
    ks.length 0 (0, List.replicate (bitmap_words univ) 0)
    ⟨by simp, List.length_replicate, fun w hw => by rw [(List.mem_replicate.mp hw).2]; omega⟩
    (body := fun i (s : Nat × List Nat) => do
      let sequence ← idx.get dbg' m i
      let (decoded, out) ← sequence.uncompress dbg' m s.2
      return (u64 (s.1 + decoded), out)) (by
      rintro i ⟨t, o⟩ _ hi ⟨ht, ho, hw⟩
      have hx : ks[i]? = some ks[i] := List.getElem?_eq_getElem (by omega)
      have hm := List.mem_of_getElem? hx
      obtain ⟨s, b, hs, -, hst⟩ := h.get i _ hx dbg'
      obtain ⟨o', e, l', w', -⟩ := C08_uncompress (dbg' := dbg') (h.valid _ hm) hst.stored o hw (by
        intro x hx
        have := hmax _ hm x hx
        have := Nat.div_le_div_right (c := 65536) this
        simp only at ho
        rw [ho, bitmap_words_eq hu]
        exact Nat.mul_le_mul_right _ (by omega))
      refine ⟨_, by rw [hs]; simp only [ok_bind]; rw [e]; rfl, ?_, l'.trans ho, w'⟩
      simp only at ht ⊢
      rw [ht, u64_add, lengths_step hx])
  rw [e]
  simp only at ht
  rw [Nat.zero_add, take_all] at ht
  rw [ht]; rfl

-- 2 sequences with 8 integers
example : ∃ m, FileAt true { size := 1 } 80000 sampleColl m 4096 ∧
    tool_cardinality false m 4096 = .ok 8 ∧ tool_decode false m 4096 = .ok (2, 8) ∧
    tool_uncompress false m 4096 = .ok (2, 8) := by
  obtain ⟨m, h⟩ := sampleFile true 4096
  have hk : keptLists { size := 1 } sampleColl = [[3, 5, 300, 70000], [3, 5, 300, 70000]] := by
    decide
  refine ⟨m, h, ?_, ?_, ?_⟩
  · rw [C40_cardinality h, hk]; rfl
  · rw [C40_decode h (by rw [hk]; simp), hk]; rfl
  · rw [C40_uncompress h (by omega) (by rw [hk]; simp), hk]; rfl

/-! ## C41: contains, select, next_geq -/

/-- C41: `contains` adds up, over 4 runs, the number of queries `(i, v)` with `v` in the `i`-th
sequence, for the first `n` queries given. -/
theorem C41_contains {n : Nat} {qs : List (Nat × Nat)} (h : FileAt dbg params univ lists m a pad)
    (hn : n < 4294967296)
    (hq : ∀ q ∈ qs, q.1 < (keptLists params lists).length ∧ q.2 < 4294967296) :
    tool_contains dbg' m a n (pairTokens qs) = .ok (4 * (qs.take n).countP
      (fun q => decide (∃ xs, (keptLists params lists)[q.1]? = some xs ∧ q.2 ∈ xs))
        % 18446744073709551616) := by
  obtain ⟨idx, h⟩ := h.indexed
  generalize keptLists params lists = ks at *
  unfold tool_contains
  rw [limit_pairs hn, h.map]
  simp only [ok_bind]
  have hq' : ∀ q ∈ qs.take n, q.1 < ks.length ∧ q.2 < 4294967296 :=
    fun q hm => hq q (List.mem_of_mem_take hm)
  generalize qs.take n = qs' at *
  generalize hf : (fun q : Nat × Nat => decide (∃ xs, ks[q.1]? = some xs ∧ q.2 ∈ xs)) = f
  obtain ⟨t, e, ht⟩ := forRange_spec
    (fun r t => t = r * qs'.countP f % 18446744073709551616) 4 0 0 (by simp)
    (body := fun _ total => forEach (fun (q : Nat × Nat) total => do
      let sequence ← idx.get dbg' m q.1
      let b ← sequence.contains dbg' m q.2
      return u64 (total + (if b then 1 else 0))) qs' total) (by
      intro r t _ _ ht
      obtain ⟨t', e, ht'⟩ := forEach_spec
        (fun pre t => t = (r * qs'.countP f + pre.countP f) % 18446744073709551616)
        qs' [] t (by simp [ht]) (body := fun (q : Nat × Nat) total => do
          let sequence ← idx.get dbg' m q.1
          let b ← sequence.contains dbg' m q.2
          return u64 (total + (if b then 1 else 0))) (by
          intro pre q t hq ht
          obtain ⟨hq1, hq2⟩ := hq' q hq
          have hx : ks[q.1]? = some ks[q.1] := List.getElem?_eq_getElem hq1
          obtain ⟨s, b, hs, -, hst⟩ := h.get _ _ hx dbg'
          refine ⟨_, by rw [hs]; simp only [ok_bind]; rw [C04_contains
            (h.valid _ (List.mem_of_getElem? hx)) hst.stored hq2]; rfl, ?_⟩
          have hfq : f q = decide (q.2 ∈ ks[q.1]) := by
            rw [← hf, decide_eq_decide, hx]
            simp
          rw [ht, u64_add, List.countP_append, List.countP_singleton, hfq, Nat.add_assoc])
      refine ⟨t', e, ?_⟩
      rw [List.nil_append] at ht'
      rw [ht', Nat.succ_mul])
  rw [e, ht]

-- queries (0,300) yes, (1,4) no, (1,70000) yes; the fourth is not read
example : ∃ m, FileAt true { size := 1 } 80000 sampleColl m 4096 ∧
    tool_contains false m 4096 3 (pairTokens [(0, 300), (1, 4), (1, 70000), (0, 3)]) = .ok 8 := by
  obtain ⟨m, h⟩ := sampleFile true 4096
  have hk : keptLists { size := 1 } sampleColl = [[3, 5, 300, 70000], [3, 5, 300, 70000]] := by
    decide
  refine ⟨m, h, ?_⟩
  rw [C41_contains h (by omega) (by rw [hk]; simp), hk]
  congr 1

theorem next_geq_find {pad : Nat} {s : SSeq} {xs : List Nat} (hv : Valid xs)
    (hs : Stored dbg xs pad m s) {v : Nat} (h : v < 4294967296) :
    s.next_geq dbg' m v = .ok ((xs.find? (fun y => decide (v ≤ y))).getD 4294967295) := by
  have h' := SSeq.next_geq_spec (dbg := dbg') (hs.repr hv) h
  rw [seqElems_chunksOf hv] at h'
  exact h'

/-- `f 0 + … + f (n - 1)` -/
def sumTo (n : Nat) (f : Nat → Nat) : Nat := ((List.range n).map f).sum

theorem sumTo_succ (n : Nat) (f : Nat → Nat) : sumTo (n + 1) f = sumTo n f + f n := by
  unfold sumTo
  rw [List.range_succ]; simp

theorem query_index {k i j n : Nat} (hi : i < n) (hj : j < k) : i * k + j < n * k := by
  have := Nat.mul_le_mul_right k (show i + 1 ≤ n by omega)
  rw [Nat.succ_mul] at this
  omega

theorem u64_product {n k : Nat} (hn : n < 4294967296) (hk : k < 4294967296) : u64 (n * k) = n * k := by
  unfold u64
  have : n * k ≤ 4294967295 * 4294967295 := Nat.mul_le_mul (by omega) (by omega)
  omega

/-- C41: `select` with `k` queries for each sequence, all of them ranks inside of the sequence they
are for: the result is, over 4 runs, the sum of the elements at those ranks. -/
theorem C41_select {k : Nat} {vs : List Nat} (h : FileAt dbg params univ lists m a pad)
    (hk : k < 4294967296) (hn : (keptLists params lists).length < 4294967296)
    (hq : ∀ i xs, (keptLists params lists)[i]? = some xs → ∀ j, j < k →
      ∃ v, vs[i * k + j]? = some v ∧ v < xs.length) :
    tool_select dbg' m a k (vs.map some) = .ok (4 * sumTo (keptLists params lists).length (fun i =>
      sumTo k (fun j => ((keptLists params lists)[i]?.getD [])[vs[i * k + j]?.getD 0]?.getD 0))
        % 18446744073709551616) := by
  obtain ⟨idx, h⟩ := h.indexed
  generalize keptLists params lists = ks at *
  unfold tool_select
  obtain ⟨r, er, hr⟩ := limit_numbers (u64 (ks.length * k)) vs
  rw [h.map]
  simp only [ok_bind, h.size, er]
  rw [u64_product hn hk] at hr
  generalize hf : (fun i j => (ks[i]?.getD [])[vs[i * k + j]?.getD 0]?.getD 0) = f
  have hf' : ∀ i j, (ks[i]?.getD [])[vs[i * k + j]?.getD 0]?.getD 0 = f i j := by
    intro i j; rw [← hf]
  simp only [hf']
  generalize hT : sumTo ks.length (fun i => sumTo k (fun j => f i j)) = T
  obtain ⟨t, e, ht⟩ := forRange_spec (fun r t => t = r * T % 18446744073709551616) 4 0 0 (by simp)
    (body := fun _ total => do
      let (_, _, total) ← forRange32 (fun i (s : Nat × Nat × Nat) => do
          let sequence ← idx.get dbg' m i
          forRange32 (fun _ (s : Nat × Nat × Nat) => do
            let x ← rdv r s.1
            let (_, value) ← sequence.select dbg' m x s.2.1
            return (s.1 + 1, value, u64 (s.2.2 + value))) k s) ks.length (0, 0, total)
      return total) (by
      intro ru t _ _ ht
      obtain ⟨⟨q, v, t'⟩, e, hq', ht'⟩ := forRange32_spec
        (fun i (s : Nat × Nat × Nat) => s.1 = i * k ∧
          s.2.2 = (ru * T + sumTo i (fun i => sumTo k (fun j => f i j))) % 18446744073709551616)
        (n := ks.length) (s := (0, 0, t)) hn ⟨by simp, by simp [sumTo, ht]⟩
        (body := fun i (s : Nat × Nat × Nat) => do
          let sequence ← idx.get dbg' m i
          forRange32 (fun _ (s : Nat × Nat × Nat) => do
            let x ← rdv r s.1
            let (_, value) ← sequence.select dbg' m x s.2.1
            return (s.1 + 1, value, u64 (s.2.2 + value))) k s) (by
          rintro i ⟨q, v, t⟩ hi ⟨hqi, ht⟩
          have hx : ks[i]? = some ks[i] := List.getElem?_eq_getElem (by omega)
          obtain ⟨s, b, hs, -, hst⟩ := h.get i _ hx dbg'
          obtain ⟨⟨q', v', t'⟩, e, hq', ht'⟩ := forRange32_spec
            (fun j (s : Nat × Nat × Nat) => s.1 = i * k + j ∧ s.2.2 = (ru * T
              + sumTo i (fun i => sumTo k (fun j => f i j)) + sumTo j (fun j => f i j))
                % 18446744073709551616)
            (n := k) (s := (q, v, t)) hk ⟨by simpa using hqi, by simpa [sumTo] using ht⟩
            (body := fun _ (st : Nat × Nat × Nat) => do
              let x ← rdv r st.1
              let (_, value) ← s.select dbg' m x st.2.1
              return (st.1 + 1, value, u64 (st.2.2 + value))) (by
              rintro j ⟨q, v, t⟩ hj ⟨hqj, ht⟩
              simp only at hqj ht
              obtain ⟨x, hxv, hxl⟩ := hq i _ hx j hj
              have hrx : r[q]? = some x := by rw [hqj, hr _ (query_index hi hj), hxv]
              refine ⟨_, by rw [rdv_of hrx]; simp only [ok_bind]; rw [C05_select
                (h.valid _ (List.mem_of_getElem? hx)) hst.stored hxl]; rfl, ?_, ?_⟩
              · simp only; omega
              · simp only
                have hfx : f i j = ks[i][x] := by
                  rw [← hf', hx, hxv]
                  simp [List.getElem?_eq_getElem hxl]
                rw [ht, u64_add, sumTo_succ, hfx, Nat.add_assoc])
          refine ⟨_, by rw [hs]; simp only [ok_bind]; exact e, ?_, ?_⟩
          · simp only at hq' ⊢; rw [hq', Nat.succ_mul]
          · simp only at ht' ⊢; rw [ht', sumTo_succ, Nat.add_assoc])
      refine ⟨t', by rw [e]; rfl, ?_⟩
      simp only at ht'
      rw [ht', hT, Nat.succ_mul])
  rw [e, ht]

/-- C41: `next_geq` with `k` queries for each sequence: over 4 runs, the sum of the least elements
not less than the query, counting 4294967295 where there is none. -/
theorem C41_next_geq {k : Nat} {vs : List Nat} (h : FileAt dbg params univ lists m a pad)
    (hk : k < 4294967296) (hn : (keptLists params lists).length < 4294967296)
    (hv : ∀ v ∈ vs, v < 4294967296) (hq : (keptLists params lists).length * k ≤ vs.length) :
    tool_next_geq dbg' m a k (vs.map some) = .ok (4 * sumTo (keptLists params lists).length (fun i =>
      sumTo k (fun j => (((keptLists params lists)[i]?.getD []).find?
        (fun x => decide (vs[i * k + j]?.getD 0 ≤ x))).getD 4294967295))
        % 18446744073709551616) := by
  obtain ⟨idx, h⟩ := h.indexed
  generalize keptLists params lists = ks at *
  unfold tool_next_geq
  obtain ⟨r, er, hr⟩ := limit_numbers (u64 (ks.length * k)) vs
  rw [h.map]
  simp only [ok_bind, h.size, er]
  rw [u64_product hn hk] at hr
  generalize hf : (fun i j => ((ks[i]?.getD []).find?
    (fun x => decide (vs[i * k + j]?.getD 0 ≤ x))).getD 4294967295) = f
  have hf' : ∀ i j, ((ks[i]?.getD []).find?
    (fun x => decide (vs[i * k + j]?.getD 0 ≤ x))).getD 4294967295 = f i j := by
    intro i j; rw [← hf]
  simp only [hf']
  generalize hT : sumTo ks.length (fun i => sumTo k (fun j => f i j)) = T
  obtain ⟨t, e, ht⟩ := forRange_spec (fun r t => t = r * T % 18446744073709551616) 4 0 0 (by simp)
    (body := fun _ total => do
      let (_, total) ← forRange32 (fun i (s : Nat × Nat) => do
          let sequence ← idx.get dbg' m i
          forRange32 (fun _ (s : Nat × Nat) => do
            let v ← rdv r s.1
            let x ← sequence.next_geq dbg' m v
            return (s.1 + 1, u64 (s.2 + x))) k s) ks.length (0, total)
      return total) (by
      intro ru t _ _ ht
      obtain ⟨⟨q, t'⟩, e, hq', ht'⟩ := forRange32_spec
        (fun i (s : Nat × Nat) => s.1 = i * k ∧
          s.2 = (ru * T + sumTo i (fun i => sumTo k (fun j => f i j))) % 18446744073709551616)
        (n := ks.length) (s := (0, t)) hn ⟨by simp, by simp [sumTo, ht]⟩
        (body := fun i (s : Nat × Nat) => do
          let sequence ← idx.get dbg' m i
          forRange32 (fun _ (s : Nat × Nat) => do
            let v ← rdv r s.1
            let x ← sequence.next_geq dbg' m v
            return (s.1 + 1, u64 (s.2 + x))) k s) (by
          rintro i ⟨q, t⟩ hi ⟨hqi, ht⟩
          have hx : ks[i]? = some ks[i] := List.getElem?_eq_getElem (by omega)
          obtain ⟨s, b, hs, -, hst⟩ := h.get i _ hx dbg'
          obtain ⟨⟨q', t'⟩, e, hq', ht'⟩ := forRange32_spec
            (fun j (s : Nat × Nat) => s.1 = i * k + j ∧ s.2 = (ru * T
              + sumTo i (fun i => sumTo k (fun j => f i j)) + sumTo j (fun j => f i j))
                % 18446744073709551616)
            (n := k) (s := (q, t)) hk ⟨by simpa using hqi, by simpa [sumTo] using ht⟩
            (body := fun _ (st : Nat × Nat) => do
              let v ← rdv r st.1
              let x ← s.next_geq dbg' m v
              return (st.1 + 1, u64 (st.2 + x))) (by
              rintro j ⟨q, t⟩ hj ⟨hqj, ht⟩
              simp only at hqj ht
              have hlt := query_index hi hj
              obtain ⟨v, hvx⟩ : ∃ v, vs[i * k + j]? = some v :=
                ⟨_, List.getElem?_eq_getElem (by omega)⟩
              have hrx : r[q]? = some v := by rw [hqj, hr _ hlt, hvx]
              refine ⟨_, by rw [rdv_of hrx]; simp only [ok_bind]; rw [next_geq_find
                (h.valid _ (List.mem_of_getElem? hx)) hst.stored
                (hv _ (List.mem_of_getElem? hvx))]; rfl, ?_, ?_⟩
              · simp only; omega
              · simp only
                rw [ht, u64_add, sumTo_succ, Nat.add_assoc, ← hf' i j, hx, hvx]; rfl)
          refine ⟨_, by rw [hs]; simp only [ok_bind]; exact e, ?_, ?_⟩
          · simp only at hq' ⊢; rw [hq', Nat.succ_mul]
          · simp only at ht' ⊢; rw [ht', sumTo_succ, Nat.add_assoc])
      refine ⟨t', by rw [e]; rfl, ?_⟩
      simp only at ht'
      rw [ht', hT, Nat.succ_mul])
  rw [e, ht]

/-- C41: with fewer than `k` queries for each sequence on standard input, `select` reads behind the
end of the vector of queries. -/
theorem C41_select_short {k : Nat} {vs : List Nat} (h : FileAt dbg params univ lists m a pad)
    (hk : k < 4294967296) (hn : (keptLists params lists).length < 4294967296)
    (hv : ∀ v ∈ vs, v < 4294967296) (hq : vs.length < (keptLists params lists).length * k) :
    tool_select dbg' m a k (vs.map some) = .error .ub := by
  obtain ⟨idx, h⟩ := h.indexed
  generalize keptLists params lists = ks at *
  unfold tool_select
  obtain ⟨r, er, hr⟩ := limit_numbers (u64 (ks.length * k)) vs
  rw [h.map]
  simp only [ok_bind, h.size, er]
  rw [u64_product hn hk] at hr
  have hk0 : 0 < k := Nat.pos_of_ne_zero (by rintro rfl; simp at hq)
  have hc := Nat.div_add_mod' vs.length k
  have hcm := Nat.mod_lt vs.length hk0
  have hci : vs.length / k < ks.length := by rw [Nat.div_lt_iff_lt_mul hk0]; exact hq
  -- the inner loop
  have inner : ∀ i xs s n e, ks[i]? = some xs → StoredAt dbg xs pad m (a + startAt ks i) e s →
      n ≤ k → (i * k + n ≤ vs.length) → ∀ st : Nat × Nat × Nat, st.1 = i * k →
      ∀ j, j < n → ∀ st : Nat × Nat × Nat, st.1 = i * k + j → ∃ st',
        (do let x ← rdv r st.1
            let (_, value) ← s.select dbg' m x st.2.1
            return (st.1 + 1, value, u64 (st.2.2 + value)) : Res (Nat × Nat × Nat)) = .ok st' ∧
          st'.1 = i * k + (j + 1) := by
    rintro i xs s n e hx hst hnk hle st0 - j hj ⟨q, v0, t⟩ hqj
    simp only at hqj
    have hi := (List.getElem?_eq_some_iff.mp hx).1
    obtain ⟨v, hvx⟩ : ∃ v, vs[i * k + j]? = some v := ⟨_, List.getElem?_eq_getElem (by omega)⟩
    have hrx : r[q]? = some v := by rw [hqj, hr _ (query_index hi (by omega)), hvx]
    simp only
    rw [rdv_of hrx]
    simp only [ok_bind]
    have hval := h.valid _ (List.mem_of_getElem? hx)
    by_cases hin : v < xs.length
    · rw [C05_select hval hst.stored hin]
      exact ⟨_, rfl, by simp only; omega⟩
    · rw [C05_select_out hval hst.stored (by omega) (hv _ (List.mem_of_getElem? hvx))]
      exact ⟨_, rfl, by simp only; omega⟩
  refine forRange_err (fun _ _ => True) 0 4 0 0 trivial (by omega) (by omega) (by omega) ?_
  intro t _
  rw [forRange32_err (e := .ub) (fun i (s : Nat × Nat × Nat) => s.1 = i * k)
    (k := vs.length / k) hn (by simp) hci]
  · rfl
  · intro i st hi hst
    have hx : ks[i]? = some ks[i] := List.getElem?_eq_getElem (by omega)
    obtain ⟨s, b, hs, -, hsa⟩ := h.get i _ hx dbg'
    have hle : i * k + k ≤ vs.length := by
      have := Nat.mul_le_mul_right k (show i + 1 ≤ vs.length / k by omega)
      rw [Nat.succ_mul] at this
      omega
    obtain ⟨st', e, hst'⟩ := forRange32_spec (fun j (s : Nat × Nat × Nat) => s.1 = i * k + j)
      (n := k) (s := st) hk (by simpa using hst)
      (fun j st1 hj => inner i _ s k _ hx hsa (Nat.le_refl _) hle st hst j hj st1)
    refine ⟨st', by rw [hs]; simp only [ok_bind]; exact e, ?_⟩
    rw [hst', Nat.succ_mul]
  · intro st hst
    have hx : ks[vs.length / k]? = some ks[vs.length / k] := List.getElem?_eq_getElem hci
    obtain ⟨s, b, hs, -, hsa⟩ := h.get _ _ hx dbg'
    rw [hs]
    simp only [ok_bind]
    refine forRange32_err (fun j (s : Nat × Nat × Nat) => s.1 = vs.length / k * k + j)
      (k := vs.length % k) hk (by simpa using hst) hcm
      (fun j st1 hj => inner _ _ s (vs.length % k) _ hx hsa (by omega) (by omega) st hst j hj st1) ?_
    intro st1 h1
    have hnone : r[st1.1]? = none := by
      rw [h1, hc, hr _ hq]
      exact List.getElem?_eq_none (Nat.le_refl _)
    unfold rdv
    rw [hnone]; rfl

/-- C41: the same for `next_geq`. -/
theorem C41_next_geq_short {k : Nat} {vs : List Nat} (h : FileAt dbg params univ lists m a pad)
    (hk : k < 4294967296) (hn : (keptLists params lists).length < 4294967296)
    (hv : ∀ v ∈ vs, v < 4294967296) (hq : vs.length < (keptLists params lists).length * k) :
    tool_next_geq dbg' m a k (vs.map some) = .error .ub := by
  obtain ⟨idx, h⟩ := h.indexed
  generalize keptLists params lists = ks at *
  unfold tool_next_geq
  obtain ⟨r, er, hr⟩ := limit_numbers (u64 (ks.length * k)) vs
  rw [h.map]
  simp only [ok_bind, h.size, er]
  rw [u64_product hn hk] at hr
  have hk0 : 0 < k := Nat.pos_of_ne_zero (by rintro rfl; simp at hq)
  have hc := Nat.div_add_mod' vs.length k
  have hcm := Nat.mod_lt vs.length hk0
  have hci : vs.length / k < ks.length := by rw [Nat.div_lt_iff_lt_mul hk0]; exact hq
  have inner : ∀ i xs s n e, ks[i]? = some xs → StoredAt dbg xs pad m (a + startAt ks i) e s →
      n ≤ k → (i * k + n ≤ vs.length) →
      ∀ j, j < n → ∀ st : Nat × Nat, st.1 = i * k + j → ∃ st',
        (do let v ← rdv r st.1
            let x ← s.next_geq dbg' m v
            return (st.1 + 1, u64 (st.2 + x)) : Res (Nat × Nat)) = .ok st' ∧
          st'.1 = i * k + (j + 1) := by
    rintro i xs s n e hx hst hnk hle j hj ⟨q, t⟩ hqj
    simp only at hqj
    have hi := (List.getElem?_eq_some_iff.mp hx).1
    obtain ⟨v, hvx⟩ : ∃ v, vs[i * k + j]? = some v := ⟨_, List.getElem?_eq_getElem (by omega)⟩
    have hrx : r[q]? = some v := by rw [hqj, hr _ (query_index hi (by omega)), hvx]
    simp only
    rw [rdv_of hrx]
    simp only [ok_bind]
    rw [next_geq_find (h.valid _ (List.mem_of_getElem? hx)) hst.stored
      (hv _ (List.mem_of_getElem? hvx))]
    exact ⟨_, rfl, by simp only; omega⟩
  refine forRange_err (fun _ _ => True) 0 4 0 0 trivial (by omega) (by omega) (by omega) ?_
  intro t _
  rw [forRange32_err (e := .ub) (fun i (s : Nat × Nat) => s.1 = i * k)
    (k := vs.length / k) hn (by simp) hci]
  · rfl
  · intro i st hi hst
    have hx : ks[i]? = some ks[i] := List.getElem?_eq_getElem (by omega)
    obtain ⟨s, b, hs, -, hsa⟩ := h.get i _ hx dbg'
    have hle : i * k + k ≤ vs.length := by
      have := Nat.mul_le_mul_right k (show i + 1 ≤ vs.length / k by omega)
      rw [Nat.succ_mul] at this
      omega
    obtain ⟨st', e, hst'⟩ := forRange32_spec (fun j (s : Nat × Nat) => s.1 = i * k + j)
      (n := k) (s := st) hk (by simpa using hst)
      (fun j st1 hj => inner i _ s k _ hx hsa (Nat.le_refl _) hle j hj st1)
    refine ⟨st', by rw [hs]; simp only [ok_bind]; exact e, ?_⟩
    rw [hst', Nat.succ_mul]
  · intro st hst
    have hx : ks[vs.length / k]? = some ks[vs.length / k] := List.getElem?_eq_getElem hci
    obtain ⟨s, b, hs, -, hsa⟩ := h.get _ _ hx dbg'
    rw [hs]
    simp only [ok_bind]
    refine forRange32_err (fun j (s : Nat × Nat) => s.1 = vs.length / k * k + j)
      (k := vs.length % k) hk (by simpa using hst) hcm
      (fun j st1 hj => inner _ _ s (vs.length % k) _ hx hsa (by omega) (by omega) j hj st1) ?_
    intro st1 h1
    have hnone : r[st1.1]? = none := by
      rw [h1, hc, hr _ hq]
      exact List.getElem?_eq_none (Nat.le_refl _)
    unfold rdv
    rw [hnone]; rfl

-- two queries for each of the two sequences; with three queries the last one is missing
example : ∃ m, FileAt true { size := 1 } 80000 sampleColl m 4096 ∧
    tool_select false m 4096 2 ([0, 3, 1, 2].map some) = .ok (4 * (3 + 70000 + 5 + 300)) ∧
    tool_next_geq false m 4096 2 ([4, 300, 0, 70001].map some)
      = .ok (4 * (5 + 300 + 3 + 4294967295)) ∧
    tool_select false m 4096 2 ([0, 3, 1].map some) = .error .ub := by
  obtain ⟨m, h⟩ := sampleFile true 4096
  have hk : keptLists { size := 1 } sampleColl = [[3, 5, 300, 70000], [3, 5, 300, 70000]] := by
    decide
  refine ⟨m, h, ?_, ?_, ?_⟩
  · rw [C41_select h (by omega) (by rw [hk]; decide), hk]
    · rfl
    · rw [hk]
      intro i xs hx j hj
      obtain ⟨hi, rfl⟩ := List.getElem?_eq_some_iff.mp hx
      simp only [List.length_cons, List.length_nil] at hi
      obtain rfl | rfl : i = 0 ∨ i = 1 := by omega
      all_goals
        obtain rfl | rfl : j = 0 ∨ j = 1 := by omega
        all_goals exact ⟨_, rfl, by simp⟩
  · rw [C41_next_geq h (by omega) (by rw [hk]; decide) (by simp) (by rw [hk]; decide), hk]
    rfl
  · exact C41_select_short h (by omega) (by rw [hk]; decide) (by simp) (by rw [hk]; decide)

/-! ## C42: intersect, union -/

/-- the number of common elements of lists `i` and `j` -/
def commonSize (ks : List (List Nat)) (q : Nat × Nat) : Nat :=
  ((ks[q.1]?.getD []).filter (fun v => decide (v ∈ ks[q.2]?.getD []))).length

/-- the number of elements in list `i` or list `j` -/
def eitherSize (ks : List (List Nat)) (q : Nat × Nat) : Nat :=
  (ks[q.1]?.getD []).length
    + ((ks[q.2]?.getD []).filter (fun v => decide (v ∉ ks[q.1]?.getD []))).length

theorem nodup_subset_length : ∀ {X Y : List Nat}, X.Nodup → (∀ v ∈ X, v ∈ Y) → X.length ≤ Y.length
  | [], _, _, _ => Nat.zero_le _
  | x :: X, Y, hn, h => by
    have hx := h x List.mem_cons_self
    rw [List.nodup_cons] at hn
    have := nodup_subset_length (Y := Y.erase x) hn.2 (fun v hv =>
      (List.mem_erase_of_ne (fun e => hn.1 (by rw [← e]; exact hv))).mpr
        (h v (List.mem_cons_of_mem _ hv)))
    rw [List.length_erase_of_mem hx] at this
    have := List.length_pos_of_mem hx
    rw [List.length_cons]
    omega

theorem uni_length {xs ys : List Nat} (hx : Valid xs) (hy : Valid ys) :
    (uni xs ys).length = xs.length + (ys.filter (fun v => decide (v ∉ xs))).length := by
  have he := enumerates_uni hx hy
  rw [← List.length_append]
  have h1 : (uni xs ys).Nodup := he.1.imp (fun h => by omega)
  have h2 : (xs ++ ys.filter (fun v => decide (v ∉ xs))).Nodup := by
    rw [List.nodup_append]
    refine ⟨hx.2.1.imp (fun h => by omega), (hy.2.1.filter _).imp (fun h => by omega), ?_⟩
    intro u hu v hv
    have := (List.mem_filter.mp hv).2
    rw [decide_eq_true_eq] at this
    rintro rfl
    exact this hu
  refine Nat.le_antisymm (nodup_subset_length h1 ?_) (nodup_subset_length h2 ?_)
  · intro v hv
    rw [he.2 v] at hv
    rw [List.mem_append, List.mem_filter, decide_eq_true_eq]
    by_cases h : v ∈ xs
    · exact Or.inl h
    · exact Or.inr ⟨hv.resolve_left h, h⟩
  · intro v hv
    rw [List.mem_append, List.mem_filter] at hv
    rw [he.2 v]
    exact hv.imp id And.left

/-- C42: `intersect` adds up, over 11 runs, the sizes of the intersections for the first `n` queries
given, if the output buffer (one slot for each value of the universe) has 23 slots to spare. -/
theorem C42_intersect {tab : Nat → List Nat} (ht : TabOk tab) {n : Nat} {qs : List (Nat × Nat)}
    (h : FileAt dbg params univ lists m a) (hn : n < 4294967296)
    (hq : ∀ q ∈ qs, q.1 < (keptLists params lists).length ∧ q.2 < (keptLists params lists).length)
    (hcap : ∀ q ∈ qs, commonSize (keptLists params lists) q + 23 ≤ univ)
    (x : List Nat) (hx : x.length = 1024) :
    tool_intersect dbg' tab m a n (pairTokens qs) x
      = .ok (11 * ((qs.take n).map (commonSize (keptLists params lists))).sum
        % 18446744073709551616) := by
  obtain ⟨idx, h⟩ := h.indexed
  generalize keptLists params lists = ks at *
  unfold tool_intersect
  rw [limit_pairs hn, h.map]
  simp only [ok_bind, h.univ]
  replace hq : ∀ q ∈ qs.take n, q.1 < ks.length ∧ q.2 < ks.length :=
    fun q hm => hq q (List.mem_of_mem_take hm)
  replace hcap : ∀ q ∈ qs.take n, commonSize ks q + 23 ≤ univ :=
    fun q hm => hcap q (List.mem_of_mem_take hm)
  generalize qs.take n = qs' at *
  generalize hT : (qs'.map (commonSize ks)).sum = T
  obtain ⟨⟨t, x', o⟩, e, ht', -⟩ := forRange_spec
    (fun r (s : Nat × List Nat × List Nat) => s.1 = r * T % 18446744073709551616 ∧
      s.2.1.length = 1024 ∧ s.2.2.length = univ) 11 0 (0, x, List.replicate univ 0)
    ⟨by simp, hx, List.length_replicate⟩
    (body := fun _ s => forEach (fun (q : Nat × Nat) (s : Nat × List Nat × List Nat) => do
      let l ← idx.get dbg' m q.1
      let r ← idx.get dbg' m q.2
      let (n, x, out) ← pairwise_intersection dbg' tab m l r s.2.1 s.2.2 0
      return (u64 (s.1 + n), x, out)) qs' s) (by
      rintro r ⟨t, x, o⟩ _ _ ⟨htr, hx, ho⟩
      simp only at htr hx ho
      obtain ⟨⟨t', x', o'⟩, e, ht', hx', ho'⟩ := forEach_spec
        (fun pre (s : Nat × List Nat × List Nat) =>
          s.1 = (r * T + (pre.map (commonSize ks)).sum) % 18446744073709551616 ∧
          s.2.1.length = 1024 ∧ s.2.2.length = univ)
        qs' [] (t, x, o) ⟨by simp [htr], hx, ho⟩
        (body := fun (q : Nat × Nat) (s : Nat × List Nat × List Nat) => do
          let l ← idx.get dbg' m q.1
          let r ← idx.get dbg' m q.2
          let (n, x, out) ← pairwise_intersection dbg' tab m l r s.2.1 s.2.2 0
          return (u64 (s.1 + n), x, out)) (by
          rintro pre q ⟨t, x, o⟩ hqm ⟨htr, hx, ho⟩
          simp only at htr hx ho
          obtain ⟨hq1, hq2⟩ := hq q hqm
          have hc := hcap q hqm
          have e1 : ks[q.1]? = some ks[q.1] := List.getElem?_eq_getElem hq1
          have e2 : ks[q.2]? = some ks[q.2] := List.getElem?_eq_getElem hq2
          obtain ⟨l, b, hl, -, sl⟩ := h.get _ _ e1 dbg'
          obtain ⟨r, b', hr, -, sr⟩ := h.get _ _ e2 dbg'
          have vx := h.valid _ (List.mem_of_getElem? e1)
          have vy := h.valid _ (List.mem_of_getElem? e2)
          have hZ : Enumerates (ks[q.1].filter (fun v => decide (v ∈ ks[q.2])))
              (fun v => v ∈ ks[q.1] ∧ v ∈ ks[q.2]) :=
            ⟨vx.2.1.filter _, fun v => by rw [List.mem_filter, decide_eq_true_eq]⟩
          have hs : commonSize ks q = (ks[q.1].filter (fun v => decide (v ∈ ks[q.2]))).length := by
            unfold commonSize; rw [e1, e2]; rfl
          rw [hs] at hc
          obtain ⟨x', o', e, hx', w⟩ := C10_intersection (dbg := dbg') ht vx vy sl.stored sr.stored
            hZ x hx o 0 (by omega)
          refine ⟨_, by rw [hl]; simp only [ok_bind]; rw [hr]; simp only [ok_bind]; rw [e]; rfl,
            ?_, hx', w.1.trans ho⟩
          simp only
          rw [htr, u64_add, List.map_append, List.sum_append, List.map_singleton,
            List.sum_singleton, hs, Nat.add_assoc])
      refine ⟨_, e, ?_, hx', ho'⟩
      simp only at ht' ⊢
      rw [List.nil_append, hT] at ht'
      rw [ht', Nat.succ_mul])
  rw [e]
  simp only at ht'
  rw [ht']; rfl

/-- C42: `union` likewise. -/
theorem C42_union {n : Nat} {qs : List (Nat × Nat)}
    (h : FileAt dbg params univ lists m a) (hn : n < 4294967296)
    (hq : ∀ q ∈ qs, q.1 < (keptLists params lists).length ∧ q.2 < (keptLists params lists).length)
    (hcap : ∀ q ∈ qs, eitherSize (keptLists params lists) q + 23 ≤ univ)
    (x : UScratch) (hx : x.Ok) :
    tool_union dbg' m a n (pairTokens qs) x
      = .ok (11 * ((qs.take n).map (eitherSize (keptLists params lists))).sum
        % 18446744073709551616) := by
  obtain ⟨idx, h⟩ := h.indexed
  generalize keptLists params lists = ks at *
  unfold tool_union
  rw [limit_pairs hn, h.map]
  simp only [ok_bind, h.univ]
  replace hq : ∀ q ∈ qs.take n, q.1 < ks.length ∧ q.2 < ks.length :=
    fun q hm => hq q (List.mem_of_mem_take hm)
  replace hcap : ∀ q ∈ qs.take n, eitherSize ks q + 23 ≤ univ :=
    fun q hm => hcap q (List.mem_of_mem_take hm)
  generalize qs.take n = qs' at *
  generalize hT : (qs'.map (eitherSize ks)).sum = T
  obtain ⟨⟨t, x', o⟩, e, ht', -⟩ := forRange_spec
    (fun r (s : Nat × UScratch × List Nat) => s.1 = r * T % 18446744073709551616 ∧
      s.2.1.Ok ∧ s.2.2.length = univ) 11 0 (0, x, List.replicate univ 0)
    ⟨by simp, hx, List.length_replicate⟩
    (body := fun _ s => forEach (fun (q : Nat × Nat) (s : Nat × UScratch × List Nat) => do
      let l ← idx.get dbg' m q.1
      let r ← idx.get dbg' m q.2
      let (n, x, out) ← pairwise_union dbg' m l r s.2.1 s.2.2 0
      return (u64 (s.1 + n), x, out)) qs' s) (by
      rintro r ⟨t, x, o⟩ _ _ ⟨htr, hx, ho⟩
      simp only at htr hx ho
      obtain ⟨⟨t', x', o'⟩, e, ht', hx', ho'⟩ := forEach_spec
        (fun pre (s : Nat × UScratch × List Nat) =>
          s.1 = (r * T + (pre.map (eitherSize ks)).sum) % 18446744073709551616 ∧
          s.2.1.Ok ∧ s.2.2.length = univ)
        qs' [] (t, x, o) ⟨by simp [htr], hx, ho⟩
        (body := fun (q : Nat × Nat) (s : Nat × UScratch × List Nat) => do
          let l ← idx.get dbg' m q.1
          let r ← idx.get dbg' m q.2
          let (n, x, out) ← pairwise_union dbg' m l r s.2.1 s.2.2 0
          return (u64 (s.1 + n), x, out)) (by
          rintro pre q ⟨t, x, o⟩ hqm ⟨htr, hx, ho⟩
          simp only at htr hx ho
          obtain ⟨hq1, hq2⟩ := hq q hqm
          have hc := hcap q hqm
          have e1 : ks[q.1]? = some ks[q.1] := List.getElem?_eq_getElem hq1
          have e2 : ks[q.2]? = some ks[q.2] := List.getElem?_eq_getElem hq2
          obtain ⟨l, b, hl, hbl, sl⟩ := h.get _ _ e1 dbg'
          obtain ⟨r, b', hr, hbr, sr⟩ := h.get _ _ e2 dbg'
          have vx := h.valid _ (List.mem_of_getElem? e1)
          have vy := h.valid _ (List.mem_of_getElem? e2)
          have hs : eitherSize ks q = (uni ks[q.1] ks[q.2]).length := by
            rw [uni_length vx vy]
            unfold eitherSize; rw [e1, e2]; rfl
          rw [hs] at hc
          have hap : a + startAt ks q.1 = a + startAt ks q.2 ∨
              a + startAt ks q.1 + b.length ≤ a + startAt ks q.2 ∨
              a + startAt ks q.2 + b'.length ≤ a + startAt ks q.1 := by
            rcases Nat.lt_trichotomy q.1 q.2 with h | h | h
            · have := startAt_mono e1 h; omega
            · rw [h]; omega
            · have := startAt_mono e2 h; omega
          obtain ⟨x', o', e, hx', w⟩ := C11_union (dbg := dbg') vx vy sl sr hap
            (enumerates_uni vx vy) x hx o 0 (by omega)
          refine ⟨_, by rw [hl]; simp only [ok_bind]; rw [hr]; simp only [ok_bind]; rw [e]; rfl,
            ?_, hx', w.1.trans ho⟩
          simp only
          rw [htr, u64_add, List.map_append, List.sum_append, List.map_singleton,
            List.sum_singleton, hs, Nat.add_assoc])
      refine ⟨_, e, ?_, hx', ho'⟩
      simp only at ht' ⊢
      rw [List.nil_append, hT] at ht'
      rw [ht', Nat.succ_mul])
  rw [e]
  simp only at ht'
  rw [ht']; rfl

example {tab : Nat → List Nat} (ht : TabOk tab) :
    ∃ m, FileAt true { size := 0 } 80000 sampleColl m 4096 ∧
    tool_intersect false tab m 4096 2 (pairTokens [(0, 1), (2, 0)]) (List.replicate 1024 7)
      = .ok (11 * 4) ∧
    tool_union false m 4096 2 (pairTokens [(0, 1), (2, 0)]) UScratch.init = .ok (11 * 9) := by
  have hg : GoodCollection { size := 0 } 80000 sampleColl := by
    refine ⟨by decide, sampleColl_good.2.1, ?_⟩
    intro xs hx hk
    simp only [sampleColl, List.mem_cons, List.not_mem_nil, or_false] at hx
    rcases hx with rfl | rfl | rfl | rfl
    · exact small_valid
    · exact absurd rfl hk.1
    · exact valid_of_lt (by decide) (by decide) (by decide)
    · exact small_valid
  have hk : keptLists { size := 0 } sampleColl = [[3, 5, 300, 70000], [7], [3, 5, 300, 70000]] := by
    decide
  obtain ⟨m, h⟩ := fileAt_small (dbg := true) hg (by decide) (by decide) 4096
  refine ⟨m, h, ?_, ?_⟩
  · rw [C42_intersect ht h (by omega) (by rw [hk]; decide) (by rw [hk]; decide) _
      List.length_replicate, hk]
    rfl
  · rw [C42_union h (by omega) (by rw [hk]; decide) (by rw [hk]; decide) _ UScratch.init_ok, hk]
    rfl

example : ∃ m, FileAt true { size := 1 } 80000 sampleColl m 4096 ∧
    tool_cardinality false m 4096 = .ok 8 ∧
    tool_next_geq false m 4096 2 ([4, 300, 0].map some) = .error .ub := by
  obtain ⟨m, h⟩ := sampleFile true 4096
  have hk : keptLists { size := 1 } sampleColl = [[3, 5, 300, 70000], [3, 5, 300, 70000]] := by
    decide
  refine ⟨m, h, ?_, C41_next_geq_short h (by omega) (by rw [hk]; decide) (by simp) (by rw [hk]; decide)⟩
  rw [C40_cardinality_small h (by rw [hk]; decide), hk]; rfl

end Sliced
