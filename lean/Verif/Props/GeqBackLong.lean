import Verif.Props.GeqBack
/-!
# `next_geq_enumerator`: bounds that go back, and long jumps (C80)

On a list whose slice sizes repeat every 32 slices (`Periodic`, C15) every jump is right, so the answers
of C80 hold for all histories, however far the bounds move.
-/
namespace Sliced

variable {dbg dbg' : Bool} {xs : List Nat} {pad : Nat} {m : Mem} {s : SSeq}

-- keep the elaborator from evaluating the list of the 65535 slice numbers
attribute [local irreducible] slicesOf chunksOf

/-- the position of the iterator, and the pointers it has used -/
structure PtrState (s : SSeq) (n : Nat) (it : It) (p g : Nat) : Prop where
  end_ : it.end_ = n
  pos : it.begin_ = p
  le : p ≤ n
  ptr : it.pointers = s.pointers + 8 * g
  used : 32 * g ≤ p

theorem PtrState.after {n p p' g : Nat} {it it' : It} (h : PtrState s n it p g)
    (hn : it' = it ∨ it.next m = .ok it') (hp : it'.end_ = it'.begin_ + (n - p')) (hle : p' ≤ n) :
    PtrState s n it' p' g := by
  have h1 := h.end_
  have h2 := h.pos
  have h3 := h.used
  rcases hn with rfl | hn
  · exact ⟨h1, by omega, hle, h.ptr, by omega⟩
  · unfold It.next at hn
    cases ho : it.offset m with
    | error x => rw [ho] at hn; cases hn
    | ok o =>
      rw [ho, ok_bind] at hn
      injection hn with hn
      subst hn
      simp only at hp
      exact ⟨h1, by simp only; omega, hle, h.ptr, by omega⟩

/-- the skip on a list whose slice sizes repeat -/
theorem periodic_skip (hper : Periodic xs) (hr : SeqAt pad m s (chunksOf xs)) {it : It} {p g : Nat}
    (hp : PtrState s (chunksOf xs).length it p g) (hit : ItOn pad m it ((chunksOf xs).drop p)) (lb : Nat) :
    ∃ it' q g', it.skip_to_value m lb = .ok it' ∧ ItOn pad m it' (fromId lb ((chunksOf xs).drop p)) ∧
      PtrState s (chunksOf xs).length it' q g' := by
  have hle := hp.le
  have hu := upTo_le_length lb ((chunksOf xs).drop p)
  rw [List.length_drop] at hu
  have hlen := chunksOf_length xs
  obtain ⟨it', e1, h1, h2, h3, -⟩ := It.skip_to_value_aligned (lb := lb) hit hr.ptrs hp.ptr hp.used hp.le (by
    rw [offRange_chunksOf, offRange_chunksOf]
    by_cases hz : (upTo lb ((chunksOf xs).drop p) - 1) / 32 = 0
    · rw [hz]; rfl
    · have := hp.used
      rw [hper.windows _ p (by omega), hper.windows _ (32 * g) (by omega)])
  obtain ⟨it2, j, e2, hj, -, h4, -, -⟩ := It.skip_to_value_hdr (lb := lb) hit.hdrOn hr.ptrs hp.ptr hp.used
    hp.le
  have hb := before_le lb ((chunksOf xs).drop p)
  rw [List.length_drop] at hb
  rw [← hj] at h2
  refine ⟨it', p + before lb ((chunksOf xs).drop p), g + j, e1, h1, h3.1.trans hp.end_, ?_, by omega, h2, ?_⟩
  · rw [h3.2.1, hp.pos]
  · have := hp.used
    omega

theorem geqBack_run_periodic (hv : Valid xs) (hper : Periodic xs) (hr : SeqAt pad m s (chunksOf xs))
    (vs : List Nat) :
    ∀ {M C B : Nat} {e : GeqEnum} {cur : List Chk} {p g : Nat}, BackInv pad m (chunksOf xs) C B e cur →
      cur = (chunksOf xs).drop p → PtrState s (chunksOf xs).length e.it p g →
      M < C + 65536 → (∃ x ∈ xs, B ≤ x) → Zeros xs M vs → (∀ w ∈ vs, w < 4294967296) →
      GeqEnum.run dbg m e vs = .ok (geqBack xs C B vs) := by
  induction vs with
  | nil => intro M C B e cur p g _ _ _ _ _ _ _; rfl
  | cons w vs ih =>
    intro M C B e cur p g h hcur hp hMC hBx hst hb
    subst hcur
    obtain ⟨it, q, g', es, hit, hq⟩ := periodic_skip hper hr hp h.it (w / 65536)
    refine geqBack_step hv h hMC hBx (hb w List.mem_cons_self) es hit hst.2 ?_
    intro C' B' e' cur' k1 k2 k3 k4
    obtain ⟨P, hP, -⟩ := k1.pre
    have hlen : (chunksOf xs).length = P.length + cur'.length := by rw [hP, List.length_append]
    have hc : cur' = (chunksOf xs).drop P.length := by rw [hP, List.drop_left' rfl]
    exact ih k1 hc (hq.after k2 (p' := P.length) (by rw [k1.it.end_]; omega) (by omega)) k3 k4 hst.2
      (fun x hx => hb x (List.mem_cons_of_mem _ hx))

/-- C80: on a list whose slice sizes repeat every 32 slices, what a fresh `next_geq_enumerator` answers to
any bounds in any order, however far they move; only 0 must not be asked for after the end has been
reached. -/
theorem C80_periodic (hv : Valid xs) (hs : Stored dbg xs pad m s) (hper : Periodic xs) (vs : List Nat)
    (hz : Zeros xs 0 vs) (hb : ∀ w ∈ vs, w < 4294967296) :
    ∃ e, GeqEnum.new m s = .ok e ∧ GeqEnum.run dbg' m e vs = .ok (geqBack xs 0 0 vs) := by
  have hr := hs.repr hv
  obtain ⟨e, h1, h2, h3⟩ := backInv_new hv hs
  obtain ⟨x, hx⟩ := List.exists_mem_of_ne_nil xs hv.1
  refine ⟨e, h1, geqBack_run_periodic (p := 0) (g := 0) (M := 0) hv hper hr vs h3 List.drop_zero.symm ?_
    (by omega) ⟨x, hx, Nat.zero_le _⟩ hz hb⟩
  rw [h2]
  exact ⟨hr.chunks, rfl, Nat.zero_le _, rfl, Nat.zero_le _⟩

/-- C80: so every answer is an element not below its bound, or `not_found`. -/
theorem C80_periodic_sound (hv : Valid xs) (hs : Stored dbg xs pad m s) (hper : Periodic xs)
    (vs : List Nat) (hb : ∀ w ∈ vs, 0 < w ∧ w < 4294967296) :
    ∃ e as, GeqEnum.new m s = .ok e ∧ GeqEnum.run dbg' m e vs = .ok as ∧ as.length = vs.length ∧
      ∀ q ∈ vs.zip as, q.2 = 4294967295 ∨ (q.2 ∈ xs ∧ q.1 ≤ q.2) := by
  have hz : ∀ M, Zeros xs M vs := by
    clear hs
    induction vs with
    | nil => intro M; trivial
    | cons w vs ih =>
      intro M
      have := hb w List.mem_cons_self
      exact ⟨fun h0 => by omega, ih (fun x hx => hb x (List.mem_cons_of_mem _ hx)) _⟩
  obtain ⟨e, h1, h2⟩ := C80_periodic (dbg' := dbg') hv hs hper vs (hz 0) (fun w hw => (hb w hw).2)
  exact ⟨e, _, h1, h2, geqBack_length vs 0 0, geqBack_sound vs 0 0⟩

/-! ## Example: forty full slices; there and back again -/

example : ∃ m s e as, Stored true (List.range (65536 * 40)) 31 m s ∧ GeqEnum.new m s = .ok e ∧
    GeqEnum.run false m e [5, 2400000, 7, 2500000] = .ok as ∧
    ∀ q ∈ [5, 2400000, 7, 2500000].zip as, q.2 = 4294967295 ∨
      (q.2 ∈ List.range (65536 * 40) ∧ q.1 ≤ q.2) := by
  obtain ⟨m, s, h⟩ := stored_exists true forty_valid 31
  obtain ⟨e, as, h1, h2, -, h3⟩ := C80_periodic_sound (dbg' := false) forty_valid h forty_periodic
    [5, 2400000, 7, 2500000] (by simp)
  exact ⟨m, s, e, as, h, h1, h2, h3⟩

theorem find_range {n k : Nat} (h : k < n) :
    (List.range n).find? (fun x => decide (k ≤ x)) = some k := by
  rw [List.find?_range_eq_some]
  exact ⟨by simp, List.mem_range.mpr h, fun j hj => by simpa using hj⟩

theorem geqBack_range {n a b w : Nat} (ha : a < 256) (hab : a ≤ b) (hbn : b < n)
    (hw : w ≤ b / 65536 * 65536) : geqBack (List.range n) 0 0 [a, b, w] = [a, b, b / 65536 * 65536] := by
  have hB : backB (sparseSlice (List.range n)) 0 a a = 0 := by
    unfold backB backC
    split <;> omega
  have hC : backC a = 0 := by unfold backC; omega
  have h1 : backBound 0 0 a = a := by unfold backBound; split <;> omega
  have h2 : backBound 0 0 b = b := by unfold backBound; split <;> omega
  rw [geqBack_some (a := a) (by rw [h1]; exact find_range (by omega)), hB, hC,
    geqBack_some (a := b) (by rw [h2]; exact find_range hbn),
    geqBack_some (a := b / 65536 * 65536) (by
      unfold backBound backC
      rw [if_pos hw]
      exact find_range (by omega))]
  rfl

/-- 32 slices forward from 5, then back to 7: the answer is the beginning of the slice of 2400000 -/
example : ∃ m s e, Stored true (List.range (65536 * 40)) 31 m s ∧ GeqEnum.new m s = .ok e ∧
    GeqEnum.run false m e [5, 2400000, 7] = .ok [5, 2400000, 2359296] := by
  obtain ⟨m, s, h⟩ := stored_exists true forty_valid 31
  obtain ⟨e, h1, h2⟩ := C80_periodic (dbg' := false) forty_valid h forty_periodic [5, 2400000, 7]
    ⟨by simp, ⟨by simp, ⟨by simp, trivial⟩⟩⟩ (by simp)
  refine ⟨m, s, e, h, h1, ?_⟩
  rw [h2, geqBack_range (by omega) (by omega) (by omega) (by omega)]

end Sliced
