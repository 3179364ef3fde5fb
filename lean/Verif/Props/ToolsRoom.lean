import Verif.Props.Room
import Verif.Props.Tools
/-!
# C44: when `decode` and `uncompress` write outside of their buffers; C45: the example program
-/
namespace Sliced

variable {pad : Nat}
variable {dbg dbg' : Bool} {params : Params} {univ a : Nat} {lists : List (List Nat)} {m : Mem}
  {xs : List Nat}

/-- the first place where a property fails -/
theorem first_failure {P : List Nat → Prop} {ks : List (List Nat)} (h : ∃ xs ∈ ks, ¬ P xs) :
    ∃ (k : Nat) (xs : List Nat), ks[k]? = some xs ∧ ¬ P xs ∧ ∀ (j : Nat) (ys : List Nat), j < k → ks[j]? = some ys → P ys := by
  induction ks with
  | nil => simp at h
  | cons y ks ih =>
    by_cases hy : P y
    · obtain ⟨x, hx, hn⟩ := h
      obtain ⟨k, xs, h1, h2, h3⟩ := ih ⟨x, (List.mem_cons.mp hx).resolve_left
        (fun e => hn (e ▸ hy)), hn⟩
      refine ⟨k + 1, xs, by rw [List.getElem?_cons_succ]; exact h1, h2, ?_⟩
      intro j ys hj hys
      cases j with
      | zero =>
        rw [List.getElem?_cons_zero, Option.some.injEq] at hys
        exact hys ▸ hy
      | succ j =>
        rw [List.getElem?_cons_succ] at hys
        exact h3 j ys (by omega) hys
    · exact ⟨0, y, rfl, hy, fun j ys hj => by omega⟩

/-- one iteration of `tool_decode` -/
theorem decode_step {ks : List (List Nat)} {idx : SIndex} (h : Indexed dbg ks univ m a idx) {i : Nat}
    (hx : ks[i]? = some xs) (t : Nat) {o : List Nat} (ho : o.length = univ) :
    (HasRoom xs univ → ∃ o', (do
        let sequence ← idx.get dbg' m i
        let (decoded, out) ← sequence.decode dbg' m o
        return (u64 (t + decoded), out) : Res (Nat × List Nat)) = .ok (u64 (t + xs.length), o') ∧
      o'.length = univ) ∧
    (¬ HasRoom xs univ → (do
        let sequence ← idx.get dbg' m i
        let (decoded, out) ← sequence.decode dbg' m o
        return (u64 (t + decoded), out) : Res (Nat × List Nat)) = .error .ub) := by
  obtain ⟨s, b, hs, -, hst⟩ := h.get i _ hx dbg'
  obtain ⟨h1, h2⟩ := C43_decode (dbg' := dbg') (h.valid _ (List.mem_of_getElem? hx)) hst.stored o
  rw [hs, ok_bind]
  constructor
  · intro hr
    obtain ⟨o', e, w⟩ := h1 (by rw [ho]; exact hr)
    exact ⟨o', by rw [e]; rfl, w.1.trans ho⟩
  · intro hr
    rw [h2 (by rw [ho]; exact hr)]; rfl

/-- C44: `decode` prints the number of sequences and of integers if each list has room in a buffer of
`universe()` slots, and writes out of bounds if one has not. -/
theorem C44_decode (h : FileAt dbg params univ lists m a) :
    ((∀ xs ∈ keptLists params lists, HasRoom xs univ) →
      tool_decode dbg' m a = .ok ((keptLists params lists).length,
        ((keptLists params lists).map List.length).sum % 18446744073709551616)) ∧
    ((∃ xs ∈ keptLists params lists, ¬ HasRoom xs univ) → tool_decode dbg' m a = .error .ub) := by
  obtain ⟨idx, h⟩ := h.indexed
  generalize keptLists params lists = ks at *
  unfold tool_decode
  rw [h.map]
  simp only [ok_bind, h.size, h.univ]
  constructor
  · intro hr
    obtain ⟨⟨t, o⟩, e, ht, -⟩ := forRange_spec
      (fun i (s : Nat × List Nat) => s.1 = ((ks.map List.length).take i).sum % 18446744073709551616 ∧
        s.2.length = univ) ks.length 0 (0, List.replicate univ 0)
      ⟨by simp, List.length_replicate⟩
      (body := fun i (s : Nat × List Nat) => do
        let sequence ← idx.get dbg' m i
        let (decoded, out) ← sequence.decode dbg' m s.2
        return (u64 (s.1 + decoded), out)) (by
        rintro i ⟨t, o⟩ _ hi ⟨ht, ho⟩
        have hx : ks[i]? = some ks[i] := List.getElem?_eq_getElem (by omega)
        obtain ⟨o', e, l⟩ := (decode_step h hx t ho).1 (hr _ (List.mem_of_getElem? hx))
        refine ⟨_, e, ?_, l⟩
        simp only at ht ⊢
        rw [ht, u64_add, lengths_step hx])
    rw [e]
    simp only at ht
    rw [Nat.zero_add, take_all] at ht
    rw [ht]; rfl
  · intro hr
    obtain ⟨k, xs, hk, hn, hfirst⟩ := first_failure hr
    have hkl : k < ks.length := (List.getElem?_eq_some_iff.mp hk).1
    rw [forRange_err (e := .ub) (fun _ (s : Nat × List Nat) => s.2.length = univ) k ks.length 0
      (0, List.replicate univ 0) List.length_replicate (by omega) (by omega)]
    · rfl
    · rintro j ⟨t, o⟩ _ hj ho
      have hx : ks[j]? = some ks[j] := List.getElem?_eq_getElem (by omega)
      obtain ⟨o', e, l⟩ := (decode_step h hx t ho).1 (hfirst j _ hj hx)
      exact ⟨_, e, l⟩
    · rintro ⟨t, o⟩ ho
      exact (decode_step h hk t ho).2 hn

/-- one iteration of `tool_uncompress` -/
theorem uncompress_step {ks : List (List Nat)} {idx : SIndex} (h : Indexed dbg ks univ m a idx pad)
    {i : Nat} (hx : ks[i]? = some xs) (t : Nat) {o : List Nat} {n : Nat} (ho : o.length = n)
    (hw : ∀ w ∈ o, w < 18446744073709551616) :
    ((∀ x ∈ xs, (x / 65536 + 1) * 1024 ≤ n) → ∃ o', (do
        let sequence ← idx.get dbg' m i
        let (decoded, out) ← sequence.uncompress dbg' m o
        return (u64 (t + decoded), out) : Res (Nat × List Nat)) = .ok (u64 (t + xs.length), o') ∧
      o'.length = n ∧ ∀ w ∈ o', w < 18446744073709551616) ∧
    ((¬ ∀ x ∈ xs, (x / 65536 + 1) * 1024 ≤ n) → (do
        let sequence ← idx.get dbg' m i
        let (decoded, out) ← sequence.uncompress dbg' m o
        return (u64 (t + decoded), out) : Res (Nat × List Nat)) = .error .ub) := by
  obtain ⟨s, b, hs, -, hst⟩ := h.get i _ hx dbg'
  have hv := h.valid _ (List.mem_of_getElem? hx)
  rw [hs, ok_bind]
  constructor
  · intro hr
    obtain ⟨o', e, l', w', -⟩ := C08_uncompress (dbg' := dbg') hv hst.stored o hw
      (by rw [ho]; exact hr)
    exact ⟨o', by rw [e]; rfl, l'.trans ho, w'⟩
  · intro hr
    obtain ⟨x, hx', hn⟩ : ∃ x ∈ xs, ¬ (x / 65536 + 1) * 1024 ≤ n := by
      apply Classical.byContradiction
      intro hne
      exact hr (fun x hx => Classical.byContradiction (fun h' => hne ⟨x, hx, h'⟩))
    rw [C43_uncompress hv hst.stored o hw hx' (by omega)]; rfl

/-- C44: `uncompress` prints the number of sequences and of integers if the bitmap it allocates
reaches to the last element of each list, and writes out of bounds if it does not. -/
theorem C44_uncompress (h : FileAt dbg params univ lists m a pad) :
    ((∀ xs ∈ keptLists params lists, ∀ x ∈ xs, (x / 65536 + 1) * 1024 ≤ bitmap_words univ) →
      tool_uncompress dbg' m a = .ok ((keptLists params lists).length,
        ((keptLists params lists).map List.length).sum % 18446744073709551616)) ∧
    ((∃ xs ∈ keptLists params lists, ¬ ∀ x ∈ xs, (x / 65536 + 1) * 1024 ≤ bitmap_words univ) →
      tool_uncompress dbg' m a = .error .ub) := by
  obtain ⟨idx, h⟩ := h.indexed
  generalize keptLists params lists = ks at *
  unfold tool_uncompress
  rw [h.map]
  simp only [ok_bind, h.size, h.univ]
  have h0 : ∀ w ∈ List.replicate (bitmap_words univ) 0, w < 18446744073709551616 :=
    fun w hw => by rw [(List.mem_replicate.mp hw).2]; omega
  constructor
  · intro hr
    obtain ⟨⟨t, o⟩, e, ht, -⟩ := forRange_spec
      (fun i (s : Nat × List Nat) => s.1 = ((ks.map List.length).take i).sum % 18446744073709551616 ∧
        s.2.length = bitmap_words univ ∧ ∀ w ∈ s.2, w < 18446744073709551616)
      ks.length 0 (0, List.replicate (bitmap_words univ) 0)
      ⟨by simp, List.length_replicate, h0⟩
      (body := fun i (s : Nat × List Nat) => do
        let sequence ← idx.get dbg' m i
        let (decoded, out) ← sequence.uncompress dbg' m s.2
        return (u64 (s.1 + decoded), out)) (by
        rintro i ⟨t, o⟩ _ hi ⟨ht, ho, hw⟩
        have hx : ks[i]? = some ks[i] := List.getElem?_eq_getElem (by omega)
        obtain ⟨o', e, l, w⟩ := (uncompress_step h hx t ho hw).1 (hr _ (List.mem_of_getElem? hx))
        refine ⟨_, e, ?_, l, w⟩
        simp only at ht ⊢
        rw [ht, u64_add, lengths_step hx])
    rw [e]
    simp only at ht
    rw [Nat.zero_add, take_all] at ht
    rw [ht]; rfl
  · intro hr
    obtain ⟨k, xs, hk, hn, hfirst⟩ := first_failure hr
    have hkl : k < ks.length := (List.getElem?_eq_some_iff.mp hk).1
    rw [forRange_err (e := .ub) (fun _ (s : Nat × List Nat) => s.2.length = bitmap_words univ ∧
        ∀ w ∈ s.2, w < 18446744073709551616) k ks.length 0
      (0, List.replicate (bitmap_words univ) 0) ⟨List.length_replicate, h0⟩ (by omega) (by omega)]
    · rfl
    · rintro j ⟨t, o⟩ _ hj ⟨ho, hw⟩
      have hx : ks[j]? = some ks[j] := List.getElem?_eq_getElem (by omega)
      obtain ⟨o', e, l, w⟩ := (uncompress_step h hx t ho hw).1 (hfirst j _ hj hx)
      exact ⟨_, e, l, w⟩
    · rintro ⟨t, o⟩ ⟨ho, hw⟩
      exact (uncompress_step h hk t ho hw).2 hn

/-- C44: the size of the bitmap is a product of 32-bit numbers; for a universe of 4294901760 or more
it is zero, and the first write is out of bounds. -/
theorem C44_uncompress_wrap (h : FileAt dbg params univ lists m a pad) (hu : 4294901760 ≤ univ)
    (hne : keptLists params lists ≠ []) : tool_uncompress dbg' m a = .error .ub := by
  have hun : univ < 4294967296 := h.1.1
  have hz : bitmap_words univ = 0 := by
    unfold bitmap_words
    rw [num_chunks_eq (by omega)]
    simp only [chunk_size, u32]
    omega
  obtain ⟨xs, t, hk⟩ := List.exists_cons_of_ne_nil hne
  have hx : xs ∈ keptLists params lists := by rw [hk]; exact List.mem_cons_self
  refine (C44_uncompress h).2 ⟨xs, hx, fun hall => ?_⟩
  obtain ⟨x, t, rfl⟩ := List.exists_cons_of_ne_nil (keptLists_valid h.1 xs hx).1
  have := hall x List.mem_cons_self
  rw [hz] at this
  omega

/-- two small lists, the universe is 5: no room for eight slots -/
theorem tinyFile (dbg : Bool) (univ : Nat) (hu : univ < 4294967296) (a : Nat) :
    ∃ m, FileAt dbg {} univ [[4]] m a := by
  have hv : Valid [4] := valid_of_lt (by decide) (by decide) (by decide)
  exact fileAt_small ⟨hu, by simp, by simp [hv]⟩ (by decide) (by decide) a

/-- C44: `decode` on the index of the collection `[[4]]` with universe 5: eight slots are written
into a buffer of five. -/
theorem C44_decode_overrun : ∃ m, FileAt true {} 5 [[4]] m 4096 ∧
    tool_decode dbg' m 4096 = .error .ub := by
  obtain ⟨m, h⟩ := tinyFile true 5 (by omega) 4096
  refine ⟨m, h, (C44_decode h).2 ⟨[4], by decide, ?_⟩⟩
  rintro ⟨-, hr⟩
  have := hr 0 0 (by omega) (by omega) (by decide +kernel) (by decide) (by decide)
  revert this
  decide

example : ∃ m, FileAt true {} 4294901760 [[4]] m 4096 ∧
    tool_uncompress dbg' m 4096 = .error .ub := by
  obtain ⟨m, h⟩ := tinyFile true 4294901760 (by omega) 4096
  exact ⟨m, h, C44_uncompress_wrap h (Nat.le_refl _) (by decide)⟩

/-! ## C45: example.cpp -/

theorem example_check_spec {pad : Nat} {s : SSeq} (hv : Valid xs) (hs : Stored dbg xs pad m s)
    {out : List Nat} (ho : ∀ i, i < xs.length → out[i]? = xs[i]?) :
    ∀ (n i value : Nat), i + n = xs.length →
      example_check dbg' m s xs out n i value = .ok 0
  | 0, _, _, _ => rfl
  | n + 1, i, value, h => by
    have hi : i < xs.length := by omega
    have hx : xs[i]? = some xs[i] := List.getElem?_eq_getElem hi
    unfold example_check
    rw [rdv_of hx, ok_bind, rdv_of ((ho i hi).trans hx), ok_bind]
    rw [if_neg (by simp)]
    rw [C05_select hv hs hi, ok_bind]
    simp only
    rw [if_neg (by simp)]
    exact example_check_spec hv hs ho n (i + 1) _ (by omega)

/-- C45: the example program, once the sequence is in memory at `data`: exit code 0 if a buffer of
`size()` slots has room, and undefined behaviour otherwise. -/
theorem C45_example {data : Nat} {bytes : List UInt8} {st : Stats} (hv : Valid xs)
    (hb : build_sequence dbg xs [] = .ok (st, bytes)) (hl : Loaded m data bytes)
    (hr : Readable m (data + bytes.length) 31) :
    (HasRoom xs xs.length → example_main dbg' m data xs = .ok 0) ∧
    (¬ HasRoom xs xs.length → example_main dbg' m data xs = .error .ub) := by
  obtain ⟨st', bytes', hb', hs⟩ := stored_total dbg hv
  rw [hb] at hb'
  simp only [Except.ok.injEq, Prod.mk.injEq] at hb'
  obtain ⟨rfl, rfl⟩ := hb'
  obtain ⟨s, es, hs⟩ := hs m data 31 hl hr
  unfold example_main
  rw [es, ok_bind, (C03_cardinality hv hs).2, ok_bind]
  obtain ⟨h1, h2⟩ := C43_decode (dbg' := dbg') hv hs (List.replicate xs.length 0)
  rw [List.length_replicate] at h1 h2
  constructor
  · intro h
    obtain ⟨out, e, w⟩ := h1 h
    rw [e, ok_bind]
    simp only
    refine example_check_spec hv hs ?_ _ _ _ (Nat.zero_add _)
    intro i hi
    have := w.2.2.1 i hi
    rwa [Nat.zero_add] at this
  · intro h
    rw [h2 h]; rfl

/-- C45: through the file: the program writes the vector of bytes, preceded by its length, maps the
file at `a` and skips the first eight bytes. -/
theorem C45_example_file {bytes : List UInt8} {st : Stats} (hv : Valid xs)
    (hb : build_sequence dbg xs [] = .ok (st, bytes)) (hl : Loaded m a (save_sequence bytes))
    (hr : Readable m (a + (save_sequence bytes).length) 31) :
    (HasRoom xs xs.length → example_main dbg' m (a + 8) xs = .ok 0) ∧
    (¬ HasRoom xs xs.length → example_main dbg' m (a + 8) xs = .error .ub) := by
  have h8 : (le64 bytes.length).length = 8 := le64_length _
  refine C45_example hv hb ?_ ?_
  · intro i b hi
    rw [Nat.add_assoc]
    refine hl (8 + i) b ?_
    unfold save_sequence
    rw [List.getElem?_append_right (by omega), h8, Nat.add_sub_cancel_left]
    exact hi
  · unfold save_sequence at hr
    rwa [List.length_append, h8, ← Nat.add_assoc] at hr

/-- 40 elements in one block, stored as a bitmap: room is there; `[4]`: it is not -/
example : HasRoom (List.range 40) 40 ∧ ¬ HasRoom [4] 1 := by
  constructor
  · refine ⟨by decide, ?_⟩
    intro i b _ _ _ h1 h2
    have h0 : 256 * i + b = 0 := by
      unfold blockCard at h1
      obtain ⟨x, hx⟩ := List.exists_mem_of_length_pos h1
      simp at hx
      omega
    rw [h0] at h2
    exact absurd h2 (by decide)
  · rintro ⟨-, hr⟩
    have := hr 0 0 (by omega) (by omega) (by decide +kernel) (by decide) (by decide)
    revert this
    decide

end Sliced
