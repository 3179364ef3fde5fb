import Verif.Proof.EncodeSeq
/-!
# Building a sequence and placing it in memory

`Stored` is the hypothesis of most property theorems: the builder was run on `xs`, its output bytes
are somewhere in memory, followed by `pad` readable bytes, and `s` is the `s_sequence` object
constructed on them.
-/
namespace Sliced

/-- `s` is the sequence object constructed on the bytes the builder produced for `xs`; those bytes
are at some address of `m` and the `pad` bytes after them can be read. -/
def Stored (dbg : Bool) (xs : List Nat) (pad : Nat) (m : Mem) (s : SSeq) : Prop :=
  ∃ (a : Nat) (st : Stats) (bytes : List UInt8),
    build_sequence dbg xs [] = .ok (st, bytes) ∧ Loaded m a bytes ∧
    Readable m (a + bytes.length) pad ∧ SSeq.ofAddr m a = .ok s

theorem arraysOk_default : Stats.ArraysOk {} :=
  ⟨List.length_replicate, List.length_replicate, List.length_replicate⟩

theorem build_sequence_spec {dbg : Bool} {xs : List Nat} (hv : Valid xs) (out : List UInt8) :
    ∃ st k, build_sequence dbg xs out = .ok (Stats.finish st, out ++ seqBytes (chunksOf xs)) ∧
      SeqStats {} st (chunksOf xs) xs.length k ∧ ∃ u ∈ xs, (∀ x ∈ xs, x ≤ u) ∧ k = u / 65536 + 1 := by
  obtain ⟨st, k, h1, h2, h3⟩ := encode_sequence_spec (dbg := dbg) hv arraysOk_default (out := out)
  refine ⟨st, k, ?_, h2, h3⟩
  unfold build_sequence
  rw [h1]; rfl

/-- The internal meaning of `Stored`. -/
theorem Stored.repr {dbg : Bool} {xs : List Nat} {pad : Nat} {m : Mem} {s : SSeq}
    (h : Stored dbg xs pad m s) (hv : Valid xs) : SeqAt pad m s (chunksOf xs) := by
  obtain ⟨a, st, bytes, h1, h2, h3, h4⟩ := h
  obtain ⟨st', k, e, -⟩ := build_sequence_spec (dbg := dbg) hv []
  rw [h1] at e
  simp only [List.nil_append, Except.ok.injEq, Prod.mk.injEq] at e
  obtain ⟨-, rfl⟩ := e
  obtain ⟨s', e, hs⟩ := seqAt_of_loaded (chunksOf_wf hv.2.1) (chunksOf_small hv.2.1)
    (chunksOf_ne_nil hv) h2 h3
  rw [h4] at e
  cases e
  exact hs

theorem loaded_memOf (a : Nat) (bs : List UInt8) (pad : Nat) : Loaded (memOf a bs pad) a bs := by
  intro i b hb
  unfold memOf
  rw [if_neg (by omega), Nat.add_sub_cancel_left,
    List.getElem?_append_left (List.getElem?_eq_some_iff.mp hb).1, hb]

theorem readable_memOf (a : Nat) (bs : List UInt8) (pad : Nat) :
    Readable (memOf a bs pad) (a + bs.length) pad := by
  intro i hi
  unfold memOf
  rw [if_neg (by omega), List.getElem?_append_right (by omega), List.getElem?_replicate,
    if_pos (by omega)]
  rfl

/-- Building and loading always succeeds on a valid list: wherever the produced bytes are in
memory, the sequence object can be constructed. -/
theorem stored_total (dbg : Bool) {xs : List Nat} (hv : Valid xs) :
    ∃ st bytes, build_sequence dbg xs [] = .ok (st, bytes) ∧
      ∀ (m : Mem) (a pad : Nat), Loaded m a bytes → Readable m (a + bytes.length) pad →
        ∃ s, SSeq.ofAddr m a = .ok s ∧ Stored dbg xs pad m s := by
  obtain ⟨st, k, e, -⟩ := build_sequence_spec (dbg := dbg) hv []
  rw [List.nil_append] at e
  refine ⟨_, _, e, ?_⟩
  intro m a pad hl hr
  obtain ⟨s, es, hs⟩ := seqAt_of_loaded (chunksOf_wf hv.2.1) (chunksOf_small hv.2.1)
    (chunksOf_ne_nil hv) hl hr
  exact ⟨s, es, a, _, _, e, hl, hr, es⟩

/-- `Stored` can be satisfied for every valid list, every padding and every build mode. -/
theorem stored_exists (dbg : Bool) {xs : List Nat} (hv : Valid xs) (pad : Nat) :
    ∃ m s, Stored dbg xs pad m s := by
  obtain ⟨st, bytes, -, h⟩ := stored_total dbg hv
  obtain ⟨s, -, hs⟩ := h (memOf 64 bytes pad) 64 pad (loaded_memOf _ _ _) (readable_memOf _ _ _)
  exact ⟨_, s, hs⟩

/-- A valid list that has a full slice, a dense slice, and a sparse slice with a dense and a sparse
block: `0..65535`, `65536..105535`, `131072..131171`, `150000`. -/
def sampleList : List Nat :=
  List.range 65536 ++ (List.range' 65536 40000 ++ (List.range' 131072 100 ++ [150000]))

theorem sampleList_valid : Valid sampleList := by
  refine ⟨?_, ?_, ?_⟩
  · intro h
    have := congrArg List.length h
    simp only [sampleList, List.length_append, List.length_range, List.length_range',
      List.length_cons, List.length_nil] at this
    omega
  · unfold sampleList
    refine List.pairwise_append.mpr ⟨range_sorted _, List.pairwise_append.mpr ⟨range'_sorted _ _,
      List.pairwise_append.mpr ⟨range'_sorted _ _, by simp, ?_⟩, ?_⟩, ?_⟩
    · intro a ha b hb
      rw [List.mem_range'_1] at ha
      simp at hb; omega
    · intro a ha b hb
      rw [List.mem_range'_1] at ha
      rcases List.mem_append.mp hb with hb | hb
      · rw [List.mem_range'_1] at hb; omega
      · simp at hb; omega
    · intro a ha b hb
      rw [List.mem_range] at ha
      rcases List.mem_append.mp hb with hb | hb
      · rw [List.mem_range'_1] at hb; omega
      · rcases List.mem_append.mp hb with hb | hb
        · rw [List.mem_range'_1] at hb; omega
        · simp at hb; omega
  · intro x hx
    unfold sampleList at hx
    rcases List.mem_append.mp hx with hx | hx
    · rw [List.mem_range] at hx; omega
    · rcases List.mem_append.mp hx with hx | hx
      · rw [List.mem_range'_1] at hx; omega
      · rcases List.mem_append.mp hx with hx | hx
        · rw [List.mem_range'_1] at hx; omega
        · simp at hx; omega

/-- A small valid list. -/
theorem small_valid : Valid [3, 5, 300, 70000] := by
  refine ⟨by simp, by simp, by simp⟩

example : ∃ m s, Stored true sampleList 31 m s := stored_exists true sampleList_valid 31

/-- The builder's output on the small list, computed by the kernel. -/
example : (build_sequence true [3, 5, 300, 70000] []).toOption.map Prod.snd = some
    [1, 0, 0, 0, 2, 0, 1, 1, 7, 0, 1, 0, 0, 0, 1, 0, 3, 0, 0, 1, 1, 0, 3, 5, 44, 17, 0, 112] := by
  decide +kernel

end Sliced
