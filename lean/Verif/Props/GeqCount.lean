import Verif.Props.GeqBack
import Verif.Props.Cost
import Verif.Proof.GeqCount
import Verif.Proof.Ends
/-!
# What a whole history of calls of `next_geq_enumerator` costs (C81)

`GeqEnum.runMoves` (Proof/GeqCount.lean) is `GeqEnum.run` with three counters: jumps over 32 slices, moves to
the next slice, and moves to the next block of the cached slice.  All three are bounded by what the list
holds, and not by the number of calls.
-/
namespace Sliced

variable {dbg dbg' : Bool} {xs : List Nat} {pad : Nat} {m : Mem} {s : SSeq}

/-- C81: the counters do not change what the calls do. -/
theorem C81_same (dbg : Bool) (m : Mem) (e : GeqEnum) (vs : List Nat) :
    (∀ as, e.run dbg m vs = .ok as ↔ ∃ w, e.runMoves dbg m vs = .ok (as, w)) ∧
    ∀ x, e.run dbg m vs = .error x ↔ e.runMoves dbg m vs = .error x := by
  have h := runC_erase dbg m e vs
  unfold Cnt.erase at h
  unfold GeqEnum.runMoves
  rw [← h]
  cases hr : (e.runC dbg m vs : Except Err (List Nat × Moves)) with
  | error y =>
    refine ⟨fun as => ⟨fun g => (by cases g), fun ⟨w, g⟩ => (by cases g)⟩, fun x => ?_⟩
    constructor
    · intro g; injection g with g; rw [g]
    · intro g; injection g with g; rw [g]; rfl
  | ok p =>
    obtain ⟨bs, w⟩ := p
    refine ⟨fun as => ?_, fun x => ⟨fun g => (by cases g), fun g => (by cases g)⟩⟩
    constructor
    · intro g
      injection g with g
      exact ⟨w, by rw [← g]⟩
    · rintro ⟨w', g⟩
      injection g with g
      injection g with g1 g2
      rw [← g1]; rfl

theorem headerBlocks_le (m : Mem) (s : SSeq) (k : Nat) : headerBlocks m s k ≤ 256 := by
  unfold headerBlocks
  split
  · next x h =>
    have := rd16_lt h
    split <;> omega
  · omega

theorem sum_map_le_mul {L : List Nat} {f : Nat → Nat} {c : Nat} (h : ∀ i ∈ L, f i ≤ c) :
    (L.map f).sum ≤ c * L.length := by
  induction L with
  | nil => simp
  | cons a L ih =>
    have h1 := h a (by simp)
    have h2 := ih (fun i hi => h i (by simp [hi]))
    rw [List.map_cons, List.sum_cons, List.length_cons, Nat.mul_succ]
    omega

/-- C81: whatever the memory holds and whatever the bounds are, in any order: all calls together do not
move over more slices than the object says there are, and not over more blocks than the headers of the
slices announce, which is at most 256 for each slice. -/
theorem C81_any {e : GeqEnum} (hn : GeqEnum.new m s = .ok e) {vs as : List Nat} {w : Moves}
    (h : e.runMoves dbg m vs = .ok (as, w)) :
    32 * w.jumps + w.steps ≤ s.chunks ∧
    w.blocks ≤ ((List.range s.chunks).map (headerBlocks m s)).sum ∧ w.blocks ≤ 256 * s.chunks := by
  obtain ⟨h1, h2⟩ := runC_new_count hn h
  have h3 : blocksFrom m s 0 = ((List.range s.chunks).map (headerBlocks m s)).sum := by
    unfold blocksFrom; rw [List.drop_zero]
  have h4 := sum_map_le_mul (L := List.range s.chunks) (f := headerBlocks m s) (c := 256)
    (fun k _ => headerBlocks_le m s k)
  rw [List.length_range] at h4
  rw [h3] at h1
  exact ⟨h2, h1, by omega⟩

/-! ## Stored lists -/

theorem chunksAt_packed {B : Nat → Chk → Prop} (cs : List Chk) : ∀ {hp dp : Nat},
    ChunksAtP B m hp dp cs → ∀ k (h : k < cs.length), rd16 m (hp + 8 * k + 4) = .ok cs[k].body.packed := by
  induction cs with
  | nil => intro hp dp _ k h; exact absurd h (Nat.not_lt_zero _)
  | cons c cs ih =>
    intro hp dp hc k h
    cases k with
    | zero => exact hc.1.2.2.1
    | succ k =>
      have := ih hc.2.2 k (by simpa using h)
      rw [show hp + 8 * (k + 1) + 4 = hp + 8 + 8 * k + 4 by omega]
      exact this

theorem headerBlocks_at {cs : List Chk} (hr : SeqAt pad m s cs) {f : Nat → Nat}
    (hf : ∀ c ∈ cs, (∀ bs, c.body = .sparse bs → f c.id = bs.length) ∧
      ((∀ bs, c.body ≠ .sparse bs) → f c.id = 0)) {k : Nat} (h : k < cs.length) :
    headerBlocks m s k = f cs[k].id := by
  have hp := chunksAt_packed _ hr.at_ k h
  have hw := (hr.wf.2 _ (List.getElem_mem h)).2
  obtain ⟨h1, h2⟩ := hf _ (List.getElem_mem h)
  unfold headerBlocks
  rw [hp]
  generalize cs[k].id = i at h1 h2
  generalize cs[k].body = b at h1 h2 hw
  cases b with
  | full => rw [h2 (fun bs hb => by cases hb)]; rfl
  | dense vs => rw [h2 (fun bs hb => by cases hb)]; rfl
  | sparse bs =>
    rw [h1 bs rfl]
    have hne : bs.length ≠ 0 := fun h0 => hw.1 (List.length_eq_zero_iff.mp h0)
    show (if (1 + 256 * (bs.length - 1)) % 256 = 1 then (1 + 256 * (bs.length - 1)) / 256 + 1 else 0) = _
    rw [if_pos (by omega)]
    omega

theorem blocks_at {cs : List Chk} (hr : SeqAt pad m s cs) {f : Nat → Nat}
    (hf : ∀ c ∈ cs, (∀ bs, c.body = .sparse bs → f c.id = bs.length) ∧
      ((∀ bs, c.body ≠ .sparse bs) → f c.id = 0)) :
    ((List.range s.chunks).map (headerBlocks m s)).sum = ((cs.map Chk.id).map f).sum := by
  rw [List.map_map, hr.chunks]
  congr 1
  apply List.ext_getElem (by simp)
  intro k h1 h2
  rw [List.getElem_map, List.getElem_map, List.getElem_range, headerBlocks_at hr hf (by simpa using h2)]
  rfl

theorem blocks_stored (hv : Valid xs) (hs : Stored dbg xs pad m s) :
    ((List.range s.chunks).map (headerBlocks m s)).sum
      = (((slicesOf xs).filter (sparseSlice xs)).map (sliceBlocks xs)).sum := by
  rw [← sum_ite_filter, ← chunksOf_map_id]
  apply blocks_at (hs.repr hv)
  intro c hc
  have hb := body_slices xs c hc
  constructor
  · intro bs hbs
    cases hq : sparseSlice xs c.id with
    | true =>
      have := (hb.1 hq).symm.trans hbs
      injection this with this
      rw [if_pos rfl, ← sliceBlocks_eq, this]
    | false => exact absurd hbs (hb.2 hq bs)
  · intro hbs
    cases hq : sparseSlice xs c.id with
    | true => exact absurd (hb.1 hq) (hbs _)
    | false => rfl

theorem Stored.chunks' (hv : Valid xs) (hs : Stored dbg xs pad m s) :
    s.chunks = (slicesOf xs).length := by
  rw [(hs.repr hv).chunks, chunksOf_length]

/-- C81: a stored list, and any history of calls that ends.  `S` are the numbers of the slices with an
element.  All calls together move over at most so many slices, and over at most as many blocks as the
sparse ones among them have non-empty blocks. -/
theorem C81_stored (hv : Valid xs) (hs : Stored dbg xs pad m s) {S : List Nat}
    (hS : Enumerates S (fun i => ∃ x ∈ xs, x / 65536 = i)) {e : GeqEnum} (hn : GeqEnum.new m s = .ok e)
    {vs as : List Nat} (h : e.run dbg' m vs = .ok as) :
    ∃ w, e.runMoves dbg' m vs = .ok (as, w) ∧ 32 * w.jumps + w.steps ≤ S.length ∧
      w.blocks ≤ ((S.filter (sparseSlice xs)).map (sliceBlocks xs)).sum := by
  obtain ⟨w, hw⟩ := ((C81_same dbg' m e vs).1 as).mp h
  obtain ⟨h1, h2, -⟩ := C81_any hn hw
  have hS' : S = slicesOf xs := Enumerates.unique hS (slicesOf_enumerates hv)
  rw [hs.chunks' hv, ← hS'] at h1
  rw [blocks_stored hv hs, ← hS'] at h2
  exact ⟨w, hw, h1, h2⟩

theorem sliceBlocks_le (hv : Valid xs) (i : Nat) : sliceBlocks xs i ≤ sliceCard xs i := by
  have h := length_ge_of_subset
    (L := ((List.range 256).filter (fun b => decide (blockCard xs (256 * i + b) ≠ 0))).map
      (fun b => 256 * i + b))
    (S := (xs.filter (fun x => x / 65536 == i)).map (fun x => x / 256)) ?_ ?_
  · rw [List.length_map, List.length_map] at h
    exact h
  · refine List.Pairwise.map _ ?_ (List.nodup_range.filter _)
    intro a b hab; omega
  · intro j hj
    obtain ⟨b, hb, rfl⟩ := List.mem_map.mp hj
    obtain ⟨hb1, hb2⟩ := List.mem_filter.mp hb
    rw [List.mem_range] at hb1
    rw [decide_eq_true_eq] at hb2
    obtain ⟨x, hx⟩ := List.exists_mem_of_ne_nil _ (fun h0 => hb2 (List.length_eq_zero_iff.mpr h0))
    obtain ⟨hx1, hx2⟩ := List.mem_filter.mp hx
    rw [beq_iff_eq] at hx2
    refine List.mem_map.mpr ⟨x, List.mem_filter.mpr ⟨hx1, ?_⟩, hx2⟩
    rw [beq_iff_eq]
    omega

theorem sum_filter_le_sum {f g : Nat → Nat} {p : Nat → Bool} (h : ∀ i, f i ≤ g i) (L : List Nat) :
    ((L.filter p).map f).sum ≤ (L.map g).sum := by
  induction L with
  | nil => exact Nat.le_refl _
  | cons a L ih =>
    have := h a
    rw [List.filter_cons, List.map_cons, List.sum_cons]
    split
    · rw [List.map_cons, List.sum_cons]; omega
    · omega

/-- C81: no matter how many calls, the moves of each kind are at most as many as the list has elements. -/
theorem C81_length (hv : Valid xs) (hs : Stored dbg xs pad m s) {e : GeqEnum}
    (hn : GeqEnum.new m s = .ok e) {vs as : List Nat} (h : e.run dbg' m vs = .ok as) :
    ∃ w, e.runMoves dbg' m vs = .ok (as, w) ∧ 32 * w.jumps + w.steps ≤ xs.length ∧
      w.blocks ≤ xs.length := by
  obtain ⟨w, h1, h2, h3⟩ := C81_stored (dbg' := dbg') hv hs (slicesOf_enumerates hv) hn h
  have h4 := slices_le hv
  have h5 := sum_filter_le_sum (p := sparseSlice xs) (sliceBlocks_le hv) (slicesOf xs)
  rw [sum_sliceCard hv] at h5
  exact ⟨w, h1, by omega, by omega⟩

/-- C81: histories for which the answers are known (C80): after them no more moves than that. -/
theorem C81_history (hv : Valid xs) (hs : Stored dbg xs pad m s) (v : Nat) (vs : List Nat)
    (hst : Steps xs v vs) (hb : ∀ w ∈ v :: vs, w < 4294967296) :
    ∃ e w, GeqEnum.new m s = .ok e ∧
      e.runMoves dbg' m (v :: vs) = .ok (geqBack xs 0 0 (v :: vs), w) ∧
      32 * w.jumps + w.steps ≤ xs.length ∧ w.blocks ≤ xs.length := by
  obtain ⟨e, h1, h2⟩ := C80_history (dbg' := dbg') hv hs v vs hst hb
  obtain ⟨w, h3, h4⟩ := C81_length hv hs h1 h2
  exact ⟨e, w, h1, h3, h4⟩

/-! ### The bounds are reached -/

/-- slices 0 and 1; the first has three blocks, the second one -/
def threeMem : Mem :=
  memOf 0 ((build_sequence true [5, 300, 600, 65537] []).toOption.map Prod.snd |>.getD []) 31

theorem three_valid : Valid [5, 300, 600, 65537] := by refine ⟨by decide, by decide, by decide⟩

theorem threeMem_check :
    (do
      let s ← SSeq.ofAddr threeMem 0
      let e ← GeqEnum.new threeMem s
      return (e.runMoves true threeMem [1000, 66536],
        e.runMoves true threeMem [6, 400, 601, 65538],
        e.runMoves true threeMem [6, 1, 6, 1, 6, 6]) : Res _).toOption
      = some (.ok ([65537, 4294967295], ⟨0, 2, 4⟩), .ok ([300, 600, 65537, 4294967295], ⟨0, 2, 2⟩),
          .ok ([300, 300, 300, 300, 300, 300], ⟨0, 0, 1⟩)) := by
  decide +kernel

/-- C81: the bounds are reached: the list has two slices with an element and four elements in four
blocks, and two calls move over both slices and all four blocks.  Six calls that stay where they are
move once. -/
theorem C81_reached :
    ∃ xs m s e, Valid xs ∧ Stored true xs 31 m s ∧ GeqEnum.new m s = .ok e ∧ xs.length = 4 ∧
      Enumerates [0, 1] (fun i => ∃ x ∈ xs, x / 65536 = i) ∧
      e.runMoves true m [1000, 66536] = .ok ([65537, 4294967295], ⟨0, 2, 4⟩) ∧
      e.runMoves true m [6, 1, 6, 1, 6, 6]
        = .ok ([300, 300, 300, 300, 300, 300], ⟨0, 0, 1⟩) := by
  obtain ⟨st, bytes, hb, hst⟩ := stored_total true three_valid
  have hmem : threeMem = memOf 0 bytes 31 := by unfold threeMem; rw [hb]; rfl
  obtain ⟨s, hs1, hs⟩ := hst threeMem 0 31 (by rw [hmem]; exact loaded_memOf _ _ _)
    (by rw [hmem]; exact readable_memOf _ _ _)
  have hc := threeMem_check
  rw [hs1, ok_bind] at hc
  cases he : GeqEnum.new threeMem s with
  | error x => rw [he] at hc; cases hc
  | ok e =>
    rw [he, ok_bind] at hc
    have hc' := Option.some.inj hc
    simp only [Prod.mk.injEq] at hc'
    exact ⟨_, threeMem, s, e, three_valid, hs, he, rfl, ⟨by simp, fun v => by simp; omega⟩, hc'.1,
      hc'.2.2⟩

/-- 34 slices of one element each -/
def manySlices : List Nat := (List.range 34).map (fun i => i * 65536)

theorem manySlices_valid : Valid manySlices := multiples_valid (by omega) (by omega) (by omega)

def manyMem : Mem := memOf 0 ((build_sequence true manySlices []).toOption.map Prod.snd |>.getD []) 31

theorem manyMem_check :
    (do
      let s ← SSeq.ofAddr manyMem 0
      let e ← GeqEnum.new manyMem s
      return (e.runMoves true manyMem [2162688, 2162689]) : Res _).toOption
      = some (.ok ([2162688, 4294967295], ⟨1, 2, 0⟩)) := by
  decide +kernel

/-- C81: with a jump: two calls jump over 32 slices and move over the other two. -/
theorem C81_reached_jump :
    ∃ xs m s e, Valid xs ∧ Stored true xs 31 m s ∧ GeqEnum.new m s = .ok e ∧
      Enumerates (List.range 34) (fun i => ∃ x ∈ xs, x / 65536 = i) ∧
      e.runMoves true m [2162688, 2162689] = .ok ([2162688, 4294967295], ⟨1, 2, 0⟩) := by
  obtain ⟨st, bytes, hb, hst⟩ := stored_total true manySlices_valid
  have hmem : manyMem = memOf 0 bytes 31 := by unfold manyMem; rw [hb]; rfl
  obtain ⟨s, hs1, hs⟩ := hst manyMem 0 31 (by rw [hmem]; exact loaded_memOf _ _ _)
    (by rw [hmem]; exact readable_memOf _ _ _)
  have hc := manyMem_check
  rw [hs1, ok_bind] at hc
  cases he : GeqEnum.new manyMem s with
  | error x => rw [he] at hc; cases hc
  | ok e =>
    rw [he, ok_bind] at hc
    refine ⟨manySlices, manyMem, s, e, manySlices_valid, hs, he, ⟨range_sorted _, fun v => ?_⟩,
      Option.some.inj hc⟩
    unfold manySlices
    rw [List.mem_range]
    constructor
    · intro h
      exact ⟨v * 65536, List.mem_map.mpr ⟨v, List.mem_range.mpr h, rfl⟩, by omega⟩
    · rintro ⟨x, hx, rfl⟩
      obtain ⟨i, hi, rfl⟩ := List.mem_map.mp hx
      rw [List.mem_range] at hi
      omega

/-! ## Examples -/

example : ∃ m s e w, Stored true [3, 5, 300, 70000] 31 m s ∧ GeqEnum.new m s = .ok e ∧
    e.runMoves false m [301, 4, 0, 80000, 1]
      = .ok (geqBack [3, 5, 300, 70000] 0 0 [301, 4, 0, 80000, 1], w) ∧
    32 * w.jumps + w.steps ≤ 2 ∧
    w.blocks ≤ ((([0, 1] : List Nat).filter (sparseSlice [3, 5, 300, 70000])).map
      (sliceBlocks [3, 5, 300, 70000])).sum := by
  obtain ⟨m, s, h⟩ := stored_exists true small_valid 31
  obtain ⟨e, h1, h2⟩ := C80_history (dbg' := false) small_valid h 301 [4, 0, 80000, 1] small_steps
    (by simp)
  obtain ⟨w, h3, h4, h5⟩ := C81_stored small_valid h small_few h1 h2
  exact ⟨m, s, e, w, h, h1, h3, h4, h5⟩

example : ∃ m s e w, Stored true [3, 5, 300, 70000] 31 m s ∧ GeqEnum.new m s = .ok e ∧
    e.runMoves false m [301, 4, 0, 80000, 1]
      = .ok (geqBack [3, 5, 300, 70000] 0 0 [301, 4, 0, 80000, 1], w) ∧
    32 * w.jumps + w.steps ≤ 4 ∧ w.blocks ≤ 4 := by
  obtain ⟨m, s, h⟩ := stored_exists true small_valid 31
  obtain ⟨e, w, h1, h2, h3⟩ := C81_history (dbg' := false) small_valid h 301 [4, 0, 80000, 1] small_steps
    (by simp)
  exact ⟨m, s, e, w, h, h1, h2, h3⟩

/-- the hypotheses of `C81_any` -/
example : ∃ m s e w, GeqEnum.new m s = .ok e ∧
    e.runMoves true m [1000, 66536] = .ok ([65537, 4294967295], w) ∧
    32 * w.jumps + w.steps ≤ s.chunks ∧ w.blocks ≤ 256 * s.chunks := by
  obtain ⟨xs, m, s, e, -, -, h1, -, -, h2, -⟩ := C81_reached
  obtain ⟨h3, -, h4⟩ := C81_any h1 h2
  exact ⟨m, s, e, _, h1, h2, h3, h4⟩

/-- a run that ends badly ends the same way with counters -/
example : ∃ m e, GeqEnum.runMoves false m e [6, 0] = .error .ub := by
  obtain ⟨xs, m, s, e, -, -, -, -, h, -, -⟩ := C80_zero_after_end
  exact ⟨m, e, ((C81_same false m e [6, 0]).2 _).mp h⟩

end Sliced
