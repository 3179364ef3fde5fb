import Verif.Props.GeqCount
import Verif.Proof.GeqReads
/-!
# The bytes a whole history of calls of `next_geq_enumerator` depends on (C81)

Making the enumerator and all its calls together depend on 6 bytes for each slice, 2 bytes for each block
of the sparse slices, and 16396 bytes for each call: what is paid for the slices and the blocks is paid
once, and not for each call.
-/
namespace Sliced

variable {dbg dbg' : Bool} {xs : List Nat} {pad : Nat} {m : Mem} {s : SSeq}

/-- next_geq_enumerator.hpp:10-17 and 23-110: an enumerator made for the object, and calls of `next_geq` on
it -/
def geqHistory (dbg : Bool) (m : Mem) (s : SSeq) (vs : List Nat) : Res (List Nat) :=
  GeqEnum.new m s >>= fun e => e.run dbg m vs

/-- C81: whatever the memory holds and whatever the bounds are: a history that ends without an error. -/
theorem C81_reads_any {vs as : List Nat} (h : geqHistory dbg m s vs = .ok as) :
    ∃ P : List Nat, P.length ≤
        6 * s.chunks + 2 * ((List.range s.chunks).map (headerBlocks m s)).sum + 16396 * vs.length ∧
      ∀ m', (∀ p ∈ P, m' p = m p) → geqHistory dbg m' s vs = .ok as := by
  unfold geqHistory at h ⊢
  cases hn : GeqEnum.new m s with
  | error x => rw [hn] at h; cases h
  | ok e =>
    rw [hn, ok_bind] at h
    obtain ⟨w, hw⟩ := ((C81_same dbg m e vs).1 as).mp h
    obtain ⟨h1, h2, -⟩ := C81_any hn hw
    obtain ⟨P, p1, p2⟩ := runC_reads (m := m) vs (e := e) (as := as) (w := w) hw
    obtain ⟨Q, q1, q2⟩ : Costs m (2 * s.chunks) (fun m => GeqEnum.new m s) := by
      unfold GeqEnum.new SSeq.size
      exact Costs.map (reads_cardinality_loop s.chunks s.header 0)
    unfold Moves.bytes at p1
    refine ⟨Q ++ P, by rw [List.length_append]; omega, fun m' hm => ?_⟩
    have e1 := q2 m' (fun p hp => hm p (List.mem_append_left _ hp))
    have e2 := p2 m' (fun p hp => hm p (List.mem_append_right _ hp))
    simp only at e1
    rw [e1, hn, ok_bind]
    refine ((C81_same dbg m' e vs).1 as).mpr ⟨w, ?_⟩
    exact Eq.trans (show e.runMoves dbg m' vs = e.runMoves dbg m vs from e2) hw

/-- C81: a stored list with the slices `S`: the answers are the same on every memory that agrees on these
bytes. -/
theorem C81_reads (hv : Valid xs) (hs : Stored dbg xs pad m s) {S : List Nat}
    (hS : Enumerates S (fun i => ∃ x ∈ xs, x / 65536 = i)) {vs as : List Nat}
    (h : geqHistory dbg' m s vs = .ok as) :
    ∃ P : List Nat, P.length ≤ 6 * S.length + 2 * ((S.filter (sparseSlice xs)).map (sliceBlocks xs)).sum
        + 16396 * vs.length ∧
      ∀ m', (∀ p ∈ P, m' p = m p) → geqHistory dbg' m' s vs = .ok as := by
  obtain ⟨P, h1, h2⟩ := C81_reads_any h
  have hS' : S = slicesOf xs := Enumerates.unique hS (slicesOf_enumerates hv)
  rw [blocks_stored hv hs, hs.chunks' hv, ← hS'] at h1
  exact ⟨P, h1, h2⟩

/-- C81: histories for which the answers are known (C80): they come from at most 8 bytes for each element
and 16396 bytes for each call. -/
theorem C81_reads_history (hv : Valid xs) (hs : Stored dbg xs pad m s) (v : Nat) (vs : List Nat)
    (hst : Steps xs v vs) (hb : ∀ w ∈ v :: vs, w < 4294967296) :
    ∃ P : List Nat, P.length ≤ 8 * xs.length + 16396 * (vs.length + 1) ∧
      ∀ m', (∀ p ∈ P, m' p = m p) → geqHistory dbg' m' s (v :: vs) = .ok (geqBack xs 0 0 (v :: vs)) := by
  obtain ⟨e, h1, h2⟩ := C80_history (dbg' := dbg') hv hs v vs hst hb
  have h : geqHistory dbg' m s (v :: vs) = .ok (geqBack xs 0 0 (v :: vs)) := by
    unfold geqHistory
    rw [h1, ok_bind, h2]
  obtain ⟨P, p1, p2⟩ := C81_reads hv hs (slicesOf_enumerates hv) h
  have h4 := slices_le hv
  have h5 := sum_filter_le_sum (p := sparseSlice xs) (sliceBlocks_le hv) (slicesOf xs)
  rw [sum_sliceCard hv] at h5
  rw [List.length_cons] at p1
  exact ⟨P, Nat.le_trans p1 (by omega), p2⟩

/-! ## Examples -/

/-- the hypotheses of `C81_reads_history`, and with it of the other two: the list 3, 5, 300, 70000, bounds
up and down -/
example : ∃ m s, Stored true [3, 5, 300, 70000] 31 m s ∧ ∃ P : List Nat, P.length ≤ 8 * 4 + 16396 * 5 ∧
    ∀ m', (∀ p ∈ P, m' p = m p) → geqHistory false m' s [301, 4, 0, 80000, 1]
      = .ok (geqBack [3, 5, 300, 70000] 0 0 [301, 4, 0, 80000, 1]) := by
  obtain ⟨m, s, h⟩ := stored_exists true small_valid 31
  obtain ⟨P, h1, h2⟩ := C81_reads_history (dbg' := false) small_valid h 301 [4, 0, 80000, 1] small_steps
    (by simp)
  exact ⟨m, s, h, P, h1, h2⟩

/-- and with the slices: two of them, with three blocks -/
example : ∃ m s as, Stored true [3, 5, 300, 70000] 31 m s ∧
    geqHistory false m s [301, 4, 0, 80000, 1] = .ok as ∧ ∃ P : List Nat, P.length ≤ 6 * 2 + 2 *
      ((([0, 1] : List Nat).filter (sparseSlice [3, 5, 300, 70000])).map
        (sliceBlocks [3, 5, 300, 70000])).sum + 16396 * 5 ∧
    ∀ m', (∀ p ∈ P, m' p = m p) → geqHistory false m' s [301, 4, 0, 80000, 1] = .ok as := by
  obtain ⟨m, s, h⟩ := stored_exists true small_valid 31
  obtain ⟨P, -, h1⟩ := C81_reads_history (dbg' := false) small_valid h 301 [4, 0, 80000, 1] small_steps
    (by simp)
  have h2 := h1 m (fun _ _ => rfl)
  obtain ⟨Q, h3, h4⟩ := C81_reads small_valid h small_few h2
  refine ⟨m, s, _, h, h2, Q, Nat.le_trans h3 (Nat.le_of_eq ?_), h4⟩
  simp only [List.length_cons, List.length_nil, Nat.zero_add, Nat.reduceAdd]

end Sliced
