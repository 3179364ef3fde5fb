import Verif.Proof.Ends
import Verif.Props.ManyWay
import Verif.Props.Bounds
import Verif.SpecIndex
/-!
# C37, C38: termination

`.error .diverge` is the outcome of a loop that does not come to an end (every loop of the model that
is not a counted loop has an iteration bound, and exceeding the bound gives `.diverge`).  C37: the
builders end for every input, valid or not; with one exception.  C38: the readers and the set
operations end for all contents of the memory, so a corrupt file cannot make them hang.
-/
namespace Sliced

variable {dbg : Bool} {m : Mem}

/-! ## C37: building -/

/-- C37: building a sequence comes to an end for every list of words, sorted or not. -/
theorem C37_build_sequence (data : List Nat) (out : List UInt8) :
    build_sequence dbg data out ≠ .error .diverge := (build_sequence_ends ..).ne

/-- C37: building an index comes to an end for every file of at most `2^32 + 1` words, well-formed or
not. -/
theorem C37_build_index (params : Params) (data : List Nat) (h : data.length ≤ 4294967297) :
    build_index dbg params data ≠ .error .diverge := (build_index_ends _ _ _ h).ne

/-- A list of `2^32 - 1` integers makes the index builder read the same list again and again: the
32-bit sum `n + 1` is 0 (builder.hpp:254).  It never finishes, whatever the filter says. -/
theorem C37_stuck (params : Params) (data : List Nat) (i : Nat) (hn : data[i]? = some 4294967295)
    (fuel : Nat) (st st' : IdxState) :
    build_loop dbg params data fuel i st ≠ .ok st' := by
  induction fuel generalizing st with
  | zero => intro h; cases h
  | succ f ih =>
    intro h
    have hlt := (List.getElem?_eq_some_iff.mp hn).1
    unfold build_loop at h
    rw [if_pos hlt] at h
    have hr : rdv data i = .ok 4294967295 := by unfold rdv; rw [hn]
    have h0 : u32 (4294967295 + 1) = 0 := by decide
    rw [hr] at h
    obtain ⟨n, hn', h⟩ := bind_ok h
    cases hn'
    obtain ⟨u, -, h⟩ := bind_ok h
    rw [h0, Nat.add_zero] at h
    split at h
    · obtain ⟨r, -, h⟩ := bind_ok h
      exact ih _ h
    · exact ih _ h

/-- C37: such a list that is long enough and does not pass the filter keeps the builder busy for ever
(no iteration bound is enough). -/
theorem C37_loop_for_ever (params : Params) (data : List Nat) (i u : Nat)
    (hn : data[i]? = some 4294967295) (hu : data[i + 4294967295]? = some u)
    (hp : pass params 4294967295 u = false) (fuel : Nat) (st : IdxState) :
    build_loop dbg params data fuel i st = .error .diverge := by
  induction fuel generalizing st with
  | zero => rfl
  | succ f ih =>
    have hlt := (List.getElem?_eq_some_iff.mp hn).1
    unfold build_loop
    rw [if_pos hlt]
    have hr : rdv data i = .ok 4294967295 := by unfold rdv; rw [hn]
    have hr' : rdv data (i + 4294967295) = .ok u := by unfold rdv; rw [hu]
    have h0 : u32 (4294967295 + 1) = 0 := by decide
    rw [hr, ok_bind, hr', ok_bind, hp, h0, Nat.add_zero]
    exact ih st

/-- C37: a well-formed collection file with one list of `2^32 - 1` integers: with a size threshold
that filters it out the builder runs for ever; with any parameters it never finishes. -/
theorem C37_build_index_stuck (univ : Nat) (xs : List Nat) (hl : xs.length = 4294967295) :
    (∀ params r, build_index dbg params (collection univ [xs]) ≠ .ok r) ∧
      build_index dbg { size := 4294967295 } (collection univ [xs]) = .error .diverge := by
  have hd : collection univ [xs] = 1 :: univ :: xs.length :: xs := by simp [collection]
  have h0 : rdv (collection univ [xs]) 0 = .ok 1 := by rw [hd]; rfl
  have h1 : rdv (collection univ [xs]) 1 = .ok univ := by rw [hd]; rfl
  have h2 : (collection univ [xs])[2]? = some 4294967295 := by rw [hd]; exact congrArg some hl
  constructor
  · intro params r h
    unfold build_index at h
    obtain ⟨d0, -, h⟩ := bind_ok h
    obtain ⟨_, -, h⟩ := bind_ok h
    obtain ⟨d1, -, h⟩ := bind_ok h
    obtain ⟨st, hst, h⟩ := bind_ok h
    exact C37_stuck params _ 2 h2 _ _ _ hst
  · obtain ⟨u, hu⟩ : ∃ u, (collection univ [xs])[2 + 4294967295]? = some u := by
      refine ⟨_, List.getElem?_eq_getElem ?_⟩
      rw [hd]
      simp only [List.length_cons, hl]
      decide
    have hp : pass { size := 4294967295 } 4294967295 u = false := by
      simp [pass]
    unfold build_index
    rw [h0, ok_bind, cassert_of (by decide), ok_bind, h1, ok_bind,
      C37_loop_for_ever _ _ 2 u h2 hu hp]
    rfl

example : ∃ xs : List Nat, xs.length = 4294967295 := ⟨List.replicate 4294967295 0, List.length_replicate⟩

/-- The builders end also by other outcomes: here the input is not sorted (out of bounds access to the
bitmap). -/
example : build_sequence true [] [] = .error .ub ∧
    (build_sequence true [5, 3] []).toOption.isSome = true := by
  constructor
  · rfl
  · decide +kernel

/-! ## C38: reading -/

/-- C38: the queries end, on any memory. -/
theorem C38_queries (s : SSeq) (v rank value : Nat) (out : List Nat) (p : Nat) :
    s.contains dbg m v ≠ .error .diverge ∧ s.select dbg m rank value ≠ .error .diverge ∧
    s.next_geq dbg m v ≠ .error .diverge ∧ s.decode dbg m out p ≠ .error .diverge ∧
    s.uncompress dbg m out ≠ .error .diverge ∧ s.cardinality m ≠ .error .diverge :=
  ⟨(contains_ends ..).ne, (select_ends ..).ne, (next_geq_ends ..).ne, (decode_ends ..).ne,
    (uncompress_ends ..).ne, (SSeq.cardinality_ends ..).ne⟩

/-- C38: the moves of an iterator end, on any memory and from any position. -/
theorem C38_iterator (it : It) (v : Nat) :
    it.next m ≠ .error .diverge ∧ it.advance m v ≠ .error .diverge ∧
    it.skip_to_value m v ≠ .error .diverge ∧ it.skip_to_position m v ≠ .error .diverge :=
  ⟨(It.next_ends ..).ne, (It.advance_ends ..).ne, (It.skip_to_value_ends ..).ne,
    (It.skip_to_position_ends ..).ne⟩

/-- C38: each operation of the enumerator ends, on any memory and in any state. -/
theorem C38_enumerator (buf : List Nat) (s : SSeq) (pte : Nat) (e : Enum) :
    Enum.init dbg m buf s pte ≠ .error .diverge ∧ e.next dbg m ≠ .error .diverge ∧
    e.value ≠ .error .diverge :=
  ⟨(Enum.init_ends ..).ne, (Enum.next_ends ..).ne, (Enum.value_ends ..).ne⟩

/-- C38: every history of calls of the `next_geq` enumerator ends, on any memory. -/
theorem C38_geq_enumerator (s : SSeq) (vs : List Nat) :
    (do let e ← GeqEnum.new m s; GeqEnum.run dbg m e vs) ≠ .error .diverge :=
  (Ends.bind' (GeqEnum.new_ends ..) (fun _ h => GeqEnum.run_ends _ _ _ _ (GeqEnum.new_sane h))).ne

/-- C38: the pairwise set operations end, on any memory, for any scratch and output buffers, and any
table of shuffle masks. -/
theorem C38_pairwise (tab : Nat → List Nat) (l r : SSeq) (x : List Nat) (u : UScratch)
    (buf : List Nat) (out : Nat) :
    pairwise_intersection dbg tab m l r x buf out ≠ .error .diverge ∧
    pairwise_union dbg m l r u buf out ≠ .error .diverge :=
  ⟨(pairwise_intersection_ends ..).ne, (pairwise_union_ends ..).ne⟩

/-- C38: the many-way set operations end, on any memory, for any scratch and output buffers, and
whatever the sorting function returns. -/
theorem C38_many (sort : (SSeq → Nat) → List SSeq → List SSeq) (ss : List SSeq) (s : IScratch)
    (u : MScratch) (buf : List Nat) (out : Nat) :
    intersection dbg sort m ss s buf out ≠ .error .diverge ∧
    union_many dbg m ss u buf out ≠ .error .diverge :=
  ⟨(intersection_ends ..).ne, (union_many_ends ..).ne⟩

/-- C38: opening a file and taking a sequence of it ends, whatever the file contains. -/
theorem C38_index (a i : Nat) :
    (do let s ← SIndex.mmap m a; s.get dbg m i) ≠ .error .diverge := by
  refine Ends.ne ?_
  unfold SIndex.mmap SIndex.get
  ends

/-- Not vacuous: on a memory full of ones (no builder wrote it: 258 chunks, all with id 257) the
operations return, here with a wrong answer; on a memory full of `0xFF` the type of the first chunk is
illegal, and on an empty memory the first access is out of bounds. -/
example :
    let ones : Mem := fun _ => some 1
    let bits : Mem := fun _ => some 255
    let none : Mem := fun _ => Option.none
    let s : SSeq := ⟨258, 2, 66, 2130⟩
    SSeq.ofAddr ones 0 = .ok s ∧
    s.next_geq true ones 16843010 = .ok 16843009 ∧
    isUb (s.contains false bits 4294967295) = true ∧
    isUb (s.contains false none 0) = true := by
  decide +kernel

example : build_index true {} [70, 0, 2, 3, 5] ≠ .error .diverge := C37_build_index _ _ (by decide)

-- a list announced with 2^32 - 1 integers
example (fuel : Nat) (st st' : IdxState) :
    build_loop false {} [9, 4294967295, 5] fuel 1 st ≠ .ok st' :=
  C37_stuck _ _ _ rfl _ _ _

example (fuel : Nat) (st : IdxState) :
    build_loop false { size := 4294967295 } (4294967295 :: List.replicate 4294967295 7) fuel 0 st
      = .error .diverge :=
  C37_loop_for_ever _ _ 0 7 rfl
    (by rw [Nat.zero_add, List.getElem?_cons_succ (i := 4294967294), List.getElem?_replicate]
        exact if_pos (by omega)) rfl _ _

example : build_index false { size := 4294967295 } (collection 9 [List.replicate 4294967295 7])
      = .error .diverge :=
  (C37_build_index_stuck 9 _ List.length_replicate).2

end Sliced
