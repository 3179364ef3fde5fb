import Verif.Props.Bounds
/-!
# C11: the union of overlapping encodings

union.hpp:55 compares `r` with `end_l` instead of `end_r`.  `C11_union` therefore assumes that the two
encodings are apart or the same.  Here is a pair of valid encodings that share bytes and for which
the union is wrong, so that the assumption cannot be dropped.
-/
namespace Sliced

variable {dbg : Bool}

/-- `0..159, 208, 224, 225, 240` (a block with a bitmap, whose last 12 bytes happen to be the head of
the encoding of `[261]`), and `261, 265` (the next block). -/
def overlapList : List Nat := List.range 160 ++ [208, 224, 225, 240, 261, 265]

/-- the encoding of `overlapList` -/
def overlapBytes : List UInt8 :=
  [0, 0, 0, 0, 165, 0, 1, 1, 38, 0, 0, 163, 1, 1] ++ List.replicate 20 255
    ++ [0, 0, 0, 0, 0, 0, 1, 0, 3, 0, 1, 0, 5, 9]

/-- the encoding of `[261]` -/
def insideBytes : List UInt8 := [0, 0, 0, 0, 0, 0, 1, 0, 3, 0, 1, 0, 5]

theorem run_of_toOption {x : Res (Nat × UScratch × List Nat)} {n k v : Nat}
    (h : x.toOption.map (fun p => (p.1, (p.2.2.take n).contains v)) = some (k, false)) :
    ∃ s o, x = .ok (k, s, o) ∧ v ∉ o.take n := by
  cases x with
  | error e => simp [Except.toOption] at h
  | ok p =>
    simp only [Except.toOption, Option.map_some, Option.some.injEq, Prod.mk.injEq] at h
    refine ⟨p.2.1, p.2.2, by rw [← h.1], fun hm => ?_⟩
    rw [List.contains_iff_mem.mpr hm] at h
    exact absurd h.2 (by simp)

theorem build_of_bytes {xs : List Nat} {bytes : List UInt8}
    (h : (build_sequence dbg xs []).toOption.map Prod.snd = some bytes) :
    ∃ st, build_sequence dbg xs [] = .ok (st, bytes) := by
  cases e : build_sequence dbg xs [] with
  | error x => rw [e] at h; simp [Except.toOption] at h
  | ok p =>
    rw [e] at h
    simp only [Except.toOption, Option.map_some, Option.some.injEq] at h
    exact ⟨p.1, by rw [← h]⟩

/-- C11: for overlapping encodings the union can lose an element: both sequences are valid and
stored, with 31 readable bytes after each, the second inside the first. -/
theorem C11_overlap_wrong : ∃ (m : Mem) (xs ys : List Nat) (l r : SSeq) (s' : UScratch)
    (out' : List Nat), Valid xs ∧ Valid ys ∧ Stored dbg xs 31 m l ∧ Stored dbg ys 31 m r ∧
    (∀ v ∈ ys, v ∈ xs) ∧
    pairwise_union dbg m l r UScratch.init (List.replicate (xs.length + 23) 0) 0
      = .ok (xs.length - 1, s', out') ∧ 265 ∈ xs ∧ 265 ∉ out'.take (xs.length - 1) := by
  have hx : Valid overlapList :=
    valid_of_lt (by decide +kernel) (by decide +kernel) (by decide +kernel)
  have hy : Valid [261] := valid_of_lt (by decide) (by decide) (by decide)
  obtain ⟨st, b1⟩ := build_of_bytes (dbg := dbg) (xs := overlapList) (bytes := overlapBytes) (by
    cases dbg <;> decide +kernel)
  obtain ⟨st', b2⟩ := build_of_bytes (dbg := dbg) (xs := [261]) (bytes := insideBytes) (by
    cases dbg <;> decide +kernel)
  have s1 : SSeq.ofAddr (memOf 64 overlapBytes 31) 64 = .ok ⟨1, 66, 66, 74⟩ := by decide +kernel
  have s2 : SSeq.ofAddr (memOf 64 overlapBytes 31) 98 = .ok ⟨1, 100, 100, 108⟩ := by decide +kernel
  have hl2 : Loaded (memOf 64 overlapBytes 31) 98 insideBytes := by
    intro i b h
    have hi : i < 13 := by
      obtain ⟨h, -⟩ := List.getElem?_eq_some_iff.mp h
      exact h
    have key : ∀ i, i < 13 → memOf 64 overlapBytes 31 (98 + i) = insideBytes[i]? := by decide +kernel
    rw [key i hi, h]
  have hr2 : Readable (memOf 64 overlapBytes 31) (98 + insideBytes.length) 31 := by
    have key : ∀ i, i < 31 → (memOf 64 overlapBytes 31 (98 + insideBytes.length + i)).isSome = true := by
      decide +kernel
    exact key
  have run : (pairwise_union dbg (memOf 64 overlapBytes 31) ⟨1, 66, 66, 74⟩ ⟨1, 100, 100, 108⟩
      UScratch.init (List.replicate (overlapList.length + 23) 0) 0).toOption.map
        (fun p => (p.1, (p.2.2.take (overlapList.length - 1)).contains 265))
      = some (overlapList.length - 1, false) := by
    cases dbg <;> decide +kernel
  obtain ⟨s', o, e, hn⟩ := run_of_toOption run
  exact ⟨_, overlapList, [261], _, _, s', o, hx, hy,
    ⟨64, st, _, b1, loaded_memOf _ _ _, readable_memOf _ _ _, s1⟩, ⟨98, st', _, b2, hl2, hr2, s2⟩,
    by decide +kernel, e, by decide +kernel, hn⟩

end Sliced
