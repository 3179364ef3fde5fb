import Verif.Proof.Unsorted
import Verif.Props.Bounds
/-!
# C39: lists that are not sorted

The builder never compares an element with the one before it, except for equality
(building_util.hpp:52-54).  The theorems say how much of the order its assertions guarantee, and
what happens to lists that are out of order.
-/
namespace Sliced

variable {xs : List Nat} {out : List UInt8}

/-- C39: what a successful build with assertions guarantees, for any list whatsoever: the slices
come in order, neighbours differ, nothing is in the last slice.  The order inside of a slice is not
checked. -/
theorem C39_accepted {r : Stats × List UInt8} (h : build_sequence true xs out = .ok r) :
    xs ≠ [] ∧ (∀ x ∈ xs, x < 4294901760) ∧ xs.Pairwise (fun x y => x / 65536 ≤ y / 65536) ∧
      ∀ i x, xs[i]? = some x → xs[i + 1]? ≠ some x :=
  build_sequence_dbg h

example : ∃ r, build_sequence true [3, 5, 300, 70000] [] = .ok r := by
  obtain ⟨st, k, h, -⟩ := build_sequence_spec (dbg := true) small_valid []
  exact ⟨_, h⟩

/-- C39: disorder across slices makes a build with assertions fail, whatever the list. -/
theorem C39_rejected {i j x y : Nat} (hx : xs[i]? = some x) (hy : xs[j]? = some y) (hij : i < j)
    (h : y / 65536 < x / 65536) : ∀ r, build_sequence true xs out ≠ .ok r := by
  intro r hr
  have hp := (build_sequence_dbg hr).2.2.1
  rw [List.pairwise_iff_getElem] at hp
  obtain ⟨hi, rfl⟩ := List.getElem?_eq_some_iff.mp hx
  obtain ⟨hj, rfl⟩ := List.getElem?_eq_some_iff.mp hy
  have := hp i j hi hj hij
  omega

example : ∀ r, build_sequence true [65536, 3, 66047] [] ≠ .ok r :=
  C39_rejected (i := 0) (j := 1) rfl rfl (by omega) (by omega)

/-- the bytes the builder makes of `[5, 3]` -/
def bytes53 : List UInt8 := [0, 0, 0, 0, 1, 0, 1, 0, 4, 0, 0, 1, 5, 3]

/-- C39: inside of a slice disorder is accepted even with assertions.  The list comes back as it
was; but 3 is not found, and 5 has no successor although it is found. -/
theorem C39_silent_debug : ∃ st s, build_sequence true [5, 3] [] = .ok (st, bytes53) ∧
    SSeq.ofAddr (memOf 0 bytes53 31) 0 = .ok s ∧
    (s.decode true (memOf 0 bytes53 31) (List.replicate 25 0) 0).toOption.map
      (fun r => (r.1, r.2.take 2)) = some (2, [5, 3]) ∧
    s.contains true (memOf 0 bytes53 31) 3 = .ok false ∧
    s.contains true (memOf 0 bytes53 31) 5 = .ok true ∧
    s.next_geq true (memOf 0 bytes53 31) 5 = .ok not_found := by
  have h1 : (build_sequence true [5, 3] []).toOption.map Prod.snd = some bytes53 := by
    decide +kernel
  have h2 : SSeq.ofAddr (memOf 0 bytes53 31) 0 = .ok ⟨1, 2, 2, 10⟩ := by decide +kernel
  obtain ⟨⟨st, b⟩, h3, h4⟩ := Option.map_eq_some_iff.mp h1
  subst h4
  refine ⟨st, _, ?_, h2, ?_, ?_, ?_, ?_⟩
  · cases hb : build_sequence true [5, 3] [] with
    | error e => rw [hb] at h3; cases h3
    | ok r => rw [hb] at h3; cases h3; rfl
  all_goals decide +kernel

/-! ## Release builds -/

/-- C39: with an element of an earlier slice among the elements of a dense slice, a release build
sets a bit outside of the slice's bitmap. -/
theorem C39_release_out_of_bounds {k v : Nat} {A B : List Nat} (hk : k < 65535)
    (hA : ∀ a ∈ A, a / 65536 = k) (hB : ∀ b ∈ B, b / 65536 = k) (hv : v / 65536 < k)
    (hAn : A ≠ []) (hBn : B ≠ [])
    (hr : ∀ i x, (A ++ v :: B)[i]? = some x → (A ++ v :: B)[i + 1]? ≠ some x)
    (hl : 32768 ≤ (A ++ v :: B).length) (hu : (A ++ v :: B).length < 65536) :
    build_sequence false (A ++ v :: B) out = .error .ub :=
  build_sequence_oob hk (fun a ha => by have := hA a ha; omega)
    (fun b hb => by have := hB b hb; omega) (by omega) hAn hBn hr hl hu

theorem noRepeat_sorted {L : List Nat} (h : L.Pairwise (· < ·)) : NoRepeat L := by
  intro i x hi hj
  rw [List.pairwise_iff_getElem] at h
  obtain ⟨h1, e1⟩ := List.getElem?_eq_some_iff.mp hi
  obtain ⟨h2, e2⟩ := List.getElem?_eq_some_iff.mp hj
  have := h i (i + 1) h1 h2 (by omega)
  omega

/-- 40000 elements of slice 1, then 3, then another element of slice 1. -/
example : build_sequence false ((List.range 40000).map (65536 + ·) ++ 3 :: [130000]) []
    = .error .ub := by
  refine C39_release_out_of_bounds (k := 1) (by omega) ?_ (by simp) (by omega) (by simp) (by simp)
    ?_ (by simp) (by simp)
  · intro a ha
    simp only [List.mem_map, List.mem_range] at ha
    obtain ⟨b, hb, rfl⟩ := ha
    omega
  · refine noRepeat_append (noRepeat_sorted ?_) (noRepeat_cons (noRepeat_cons noRepeat_nil
      (by simp)) (by simp)) ?_
    · rw [List.pairwise_map]
      exact List.Pairwise.imp (fun h => by omega) List.pairwise_lt_range
    · intro a ha b hb
      simp only [List.mem_map, List.mem_range] at ha
      simp only [List.mem_cons, List.not_mem_nil, or_false] at hb
      obtain ⟨c, hc, rfl⟩ := ha
      omega

/-- the bytes a release build makes of `[65536, v, 66047]` -/
def bytesWrap (v : Nat) : List UInt8 :=
  [0, 0, 1, 0, 2, 0, 1, 2, 9, 0, 0, 0, 0, 0, 1, 0, 0, UInt8.ofNat v, 255]

theorem bitsize_take {s : Slice} {x : Nat} {t : List Nat} {f base bs : Nat} {st : Stats}
    (hx : x < s.right) (hv : sub32 x base < 256) :
    sparse_chunk_bitsize_loop false s (f + 1) (x :: t) base bs st
      = sparse_chunk_bitsize_loop false s f t base (bs + 1) st := by
  conv => lhs; unfold sparse_chunk_bitsize_loop
  rw [if_pos hx]
  dsimp only
  rw [if_neg (by simp only [block_size]; omega), cassert_rel, cassert_rel]
  rfl

theorem bitsize_next {s : Slice} {x : Nat} {t : List Nat} {f base bs : Nat} {st st' : Stats}
    (hx : x < s.right) (hv : 256 ≤ sub32 x base) (hb : block_bitsize false bs st = .ok st') :
    sparse_chunk_bitsize_loop false s (f + 1) (x :: t) base bs st
      = sparse_chunk_bitsize_loop false s f (x :: t) (u32 (base + 256)) 0 st' := by
  conv => lhs; unfold sparse_chunk_bitsize_loop
  rw [if_pos hx]
  dsimp only
  rw [if_pos (by simp only [block_size]; omega), hb]
  rfl

/-- the counters that matter for the size -/
def OneByteBlocks (n : Nat) (sp : Stats) : Prop :=
  sp.dense_blocks = 0 ∧ sp.sparse_blocks = n ∧ sp.dense_blocks_bits = 0 ∧
    sp.sparse_blocks_bits = 16 * n ∧ sp.sparse_blocks_cardinalities.length = 31

theorem block_bitsize_one {n : Nat} {sp : Stats} (h : OneByteBlocks n sp) :
    ∃ sp', block_bitsize false 1 sp = .ok sp' ∧ OneByteBlocks (n + 1) sp' := by
  obtain ⟨h1, h2, h3, h4, h5⟩ := h
  unfold block_bitsize
  simp only [cassert_rel, ok_bind]
  have hx : sp.sparse_blocks_cardinalities[1]? = some (sp.sparse_blocks_cardinalities[1]) :=
    List.getElem?_eq_getElem (by omega)
  rw [if_neg (by omega), if_neg (by simp only [block_sparseness_threshold]; omega),
    arr_add_of hx]
  refine ⟨_, rfl, h1, by simp [h2], h3, ?_, by simp [h5]⟩
  simp only [h4]; omega

theorem encode_take {s : Slice} {x : Nat} {t : List Nat} {f base id : Nat} {block : List Nat}
    {h d : List UInt8} (hx : x < s.right) (hv : sub32 x base < 256) :
    encode_sparse_chunk_loop false s (f + 1) (x :: t) base id block h d
      = encode_sparse_chunk_loop false s f t base id (block ++ [sub32 x base]) h d := by
  conv => lhs; unfold encode_sparse_chunk_loop
  rw [if_pos hx]
  dsimp only
  rw [if_neg (by simp only [block_size]; omega), cassert_rel, cassert_rel]
  rfl

theorem encode_next {s : Slice} {x y : Nat} {t : List Nat} {f base id : Nat}
    {h d : List UInt8} (hx : x < s.right) (hv : 256 ≤ sub32 x base) :
    encode_sparse_chunk_loop false s (f + 1) (x :: t) base id [y] h d
      = encode_sparse_chunk_loop false s f (x :: t) (u32 (base + 256)) (id + 1) []
          (h ++ le8 id ++ le8 0) (d ++ le8 y) := by
  conv => lhs; unfold encode_sparse_chunk_loop
  rw [if_pos hx]
  dsimp only
  rw [if_pos (by simp only [block_size]; omega)]
  rfl

/-- while `base` goes round, `x - base` stays large -/
theorem wrap_far {v j : Nat} (hv : v < 256) (hj : j < 16776959) :
    256 ≤ sub32 v (u32 (65792 + 256 * j)) := by
  unfold sub32 u32; omega

theorem climb_far {j : Nat} (hj : j < 256) : 256 ≤ sub32 66047 (u32 (256 + 256 * j)) := by
  unfold sub32 u32; omega

theorem wrap_fuel (v : Nat) {K : Nat} (hK : K = 16776959) : ∃ f,
    sparse_loop_fuel [65536, v, 66047] = f + 1 + 1 + 256 + 1 + 1 + K + 1 + 1 := by
  refine ⟨33554431, ?_⟩
  unfold sparse_loop_fuel
  simp only [List.length_cons, List.length_nil]
  omega

theorem wrap_bitsize {v : Nat} (hv : v < 256) :
    ∃ sp, sparse_chunk_bitsize false [65536, v, 66047] ⟨65536, 131072⟩ = .ok sp ∧
      OneByteBlocks 3 sp := by
  obtain ⟨K, hK⟩ : ∃ K, K = 16776959 := ⟨_, rfl⟩
  obtain ⟨f, hf⟩ := wrap_fuel v hK
  obtain ⟨s1, e1, i1⟩ := block_bitsize_one (n := 0) (sp := {}) ⟨rfl, rfl, rfl, rfl, rfl⟩
  obtain ⟨s2, e2, i2⟩ := block_bitsize_one (n := 1)
    (sp := { s1 with blocks := s1.blocks + K, empty_blocks := s1.empty_blocks + K }) i1
  obtain ⟨s3, e3, i3⟩ := block_bitsize_one (n := 2)
    (sp := { s2 with blocks := s2.blocks + 256, empty_blocks := s2.empty_blocks + 256 }) i2
  refine ⟨s3, ?_, i3⟩
  unfold sparse_chunk_bitsize
  rw [hf, bitsize_take (by show _ < 131072; omega) (by unfold sub32 u32; dsimp only; omega),
    bitsize_next (by show _ < 131072; omega) (by unfold sub32 u32; dsimp only; omega) e1,
    show u32 (65536 + 256) = 65792 from rfl,
    flush_bitsize (by show _ < 131072; omega) _ K 65792 s1 (by omega)
      (fun j hj => wrap_far hv (by omega)),
    show u32 (65792 + 256 * K) = 0 by unfold u32; omega,
    bitsize_take (by show _ < 131072; omega) (by unfold sub32 u32; omega),
    bitsize_next (by show _ < 131072; omega) (by unfold sub32 u32; omega) e2,
    show u32 (0 + 256) = 256 from rfl,
    flush_bitsize (by show _ < 131072; omega) _ 256 256 s2 (by omega) (fun j hj => climb_far hj),
    show u32 (256 + 256 * 256) = 65792 from rfl,
    bitsize_take (by show _ < 131072; omega) (by unfold sub32 u32; omega)]
  show (sparse_chunk_bitsize_loop false _ (f + 1) [] _ _ _ >>= _) = _
  unfold sparse_chunk_bitsize_loop
  exact e3

theorem wrap_encode {v : Nat} (hv : v < 256) (out : List UInt8) :
    encode_sparse_chunk false [65536, v, 66047] ⟨65536, 131072⟩ [] out
      = .ok ([], out ++ [0, 0, 0, 0, 1, 0] ++ [0, UInt8.ofNat v, 255]) := by
  obtain ⟨K, hK⟩ : ∃ K, K = 16776959 := ⟨_, rfl⟩
  obtain ⟨f, hf⟩ := wrap_fuel v hK
  have hs : sub32 v 0 = v := by unfold sub32 u32; omega
  unfold encode_sparse_chunk
  rw [hf, encode_take (by show _ < 131072; omega) (by unfold sub32 u32; dsimp only; omega),
    List.nil_append,
    encode_next (by show _ < 131072; omega) (by unfold sub32 u32; dsimp only; omega),
    show u32 (65536 + 256) = 65792 from rfl,
    flush_encode (by show _ < 131072; omega) _ K 65792 _ (by omega)
      (fun j hj => wrap_far hv (by omega)),
    show u32 (65792 + 256 * K) = 0 by unfold u32; omega,
    encode_take (by show _ < 131072; omega) (by omega), List.nil_append, hs,
    encode_next (by show _ < 131072; omega) (by unfold sub32 u32; omega),
    show u32 (0 + 256) = 256 from rfl,
    flush_encode (by show _ < 131072; omega) _ 256 256 _ (by omega) (fun j hj => climb_far hj),
    show u32 (256 + 256 * 256) = 65792 from rfl,
    encode_take (by show _ < 131072; omega) (by unfold sub32 u32; omega)]
  show (encode_sparse_chunk_loop false _ (f + 1) [] _ _ _ _ _ >>= _) = _
  unfold encode_sparse_chunk_loop
  subst hK
  simp only [ok_bind]
  rfl

theorem wrap_build {v : Nat} (hv : v < 256) : ∃ st,
    build_sequence false [65536, v, 66047] [] = .ok (st, bytesWrap v) := by
  obtain ⟨sp, hsp, h1, h2, h3, h4, h5⟩ := wrap_bitsize hv
  have hcc : chunk_cardinality false [65536, v, 66047] ⟨65536, 131072⟩ = .ok 3 := by
    unfold chunk_cardinality
    rw [chunk_cardinality_loop_rel (by
      intro x hx
      simp only [List.mem_cons, List.not_mem_nil, or_false] at hx
      show x < 131072
      omega) (noRepeat_cons (noRepeat_cons (noRepeat_cons noRepeat_nil (by simp)) (by
        simp; omega)) (by simp; omega)) (by simp)]
    simp only [ok_bind, cassert_rel]
    rfl
  have step : ∀ st : Stats, st.num_blocks_in_chunks.length = 257 → st.num_integers.length = 257 →
      ∃ st', encode_chunk_step false 1
        { rest := [65536, v, 66047], s := ⟨65536, 131072⟩, header := [], tmp := [], block := [],
          stats := st } = .ok
        { rest := [], s := ⟨131072, 196608⟩, header := [1, 2, 513, 9]
          tmp := [0, 0, 0, 0, 1, 0, 0, UInt8.ofNat v, 255], block := [], stats := st' } := by
    intro st hn hm
    unfold encode_chunk_step
    dsimp only
    rw [if_pos (by omega), hcc]
    simp only [ok_bind]
    rw [if_pos (by simp only [chunk_sparseness_threshold]; omega), hsp]
    simp only [ok_bind, h1, h2, h3, h4]
    rw [if_neg (by simp only [chunk_size, bytes_for, u32]; omega), cassert_rel]
    simp only [ok_bind]
    rw [arr_add_of (x := st.num_blocks_in_chunks[3]) (by
      simp only [u16]; exact List.getElem?_eq_getElem (by omega))]
    simp only [ok_bind]
    rw [arr_add_of (x := st.num_integers[3]) (by
      simp only [u16]; exact List.getElem?_eq_getElem (by omega))]
    simp only [ok_bind]
    rw [wrap_encode hv]
    exact ⟨_, rfl⟩
  have key : ∀ st : Stats, st.num_blocks_in_chunks.length = 257 → st.num_integers.length = 257 →
      ∃ st', encode_chunks false 2 0
        { rest := [65536, v, 66047], s := ⟨0, chunk_size⟩, header := [], tmp := [], block := [],
          stats := st } = .ok
        { rest := [], s := ⟨131072, 196608⟩, header := [1, 2, 513, 9]
          tmp := [0, 0, 0, 0, 1, 0, 0, UInt8.ofNat v, 255], block := [], stats := st' } := by
    intro st hn hm
    unfold encode_chunks
    rw [encode_chunk_step_empty (x := 65536) (t := [v, 66047]) rfl (by show ¬ _ < 65536; omega)]
    simp only [ok_bind]
    rw [encode_chunks_one]
    exact step _ hn hm
  have hn : num_chunks 66047 = 2 := rfl
  obtain ⟨st', hk⟩ := key { ({} : Stats) with
      sequences := ({} : Stats).sequences + 1
      integers := ({} : Stats).integers + [65536, v, 66047].length
      chunks := ({} : Stats).chunks + 2 } List.length_replicate List.length_replicate
  unfold build_sequence encode_sequence
  simp only [cassert_rel, ok_bind, List.getLast?_cons_cons, List.getLast?_singleton, hn, hk]
  exact ⟨_, rfl⟩

/-- C39: disorder across slices on the sparse path is not noticed by a release build: the element
`v` of slice 0 is stored as `65536 + v`. -/
theorem C39_release_wrong {v : Nat} (hv : v < 256) : ∃ st s,
    build_sequence false [65536, v, 66047] [] = .ok (st, bytesWrap v) ∧
    SSeq.ofAddr (memOf 0 (bytesWrap v) 31) 0 = .ok s ∧
    (s.decode false (memOf 0 (bytesWrap v) 31) (List.replicate 26 0) 0).toOption.map
      (fun r => (r.1, r.2.take 3)) = some (3, [65536, 65536 + v, 66047]) := by
  obtain ⟨st, h⟩ := wrap_build hv
  refine ⟨st, ⟨1, 2, 2, 10⟩, h, ?_⟩
  have := (by decide +kernel : ∀ v : Fin 256,
    SSeq.ofAddr (memOf 0 (bytesWrap v) 31) 0 = .ok ⟨1, 2, 2, 10⟩ ∧
    (SSeq.decode false (memOf 0 (bytesWrap v) 31) ⟨1, 2, 2, 10⟩ (List.replicate 26 0) 0).toOption.map
      (fun r => (r.1, r.2.take 3)) = some (3, [65536, 65536 + v.val, 66047]))
  exact this ⟨v, hv⟩

example : ∃ r, build_sequence true [5, 3] [] = .ok r ∧
    [5, 3].Pairwise (fun x y => x / 65536 ≤ y / 65536) := by
  obtain ⟨st, s, h, -⟩ := C39_silent_debug
  exact ⟨_, h, (C39_accepted h).2.2.1⟩

end Sliced
