import Verif.Props.Build
import Verif.Proof.IterPos
/-!
# The chunk iterator (C32)
-/
namespace Sliced

variable {dbg dbg' : Bool} {xs : List Nat} {pad : Nat} {m : Mem} {s : SSeq}

theorem fromId_map_id (lb : Nat) (cs : List Chk) :
    (fromId lb cs).map Chk.id = (cs.map Chk.id).dropWhile (fun i => decide (i < lb)) := by
  unfold fromId
  rw [List.dropWhile_map]; rfl

theorem sorted_dropWhile_length {L : List Nat} (h : L.Pairwise (· < ·)) (c : Nat) :
    (L.dropWhile (fun i => decide (i < c))).length
      + (L.filter (fun i => decide (i < c))).length = L.length := by
  induction L with
  | nil => rfl
  | cons a L ih =>
    rw [List.pairwise_cons] at h
    by_cases ha : a < c
    · have := ih h.2
      simp only [List.dropWhile_cons, List.filter_cons, ha, decide_true, if_true,
        List.length_cons]; omega
    · have : L.filter (fun i => decide (i < c)) = [] := by
        rw [List.filter_eq_nil_iff]
        intro x hx
        have := h.1 x hx
        simp; omega
      simp [ha, this]

theorem dropWhile_head_find (L : List Nat) (c : Nat) :
    (L.dropWhile (fun i => decide (i < c))).head? = L.find? (fun i => decide (c ≤ i)) := by
  induction L with
  | nil => rfl
  | cons a L ih =>
    by_cases ha : a < c
    · simp only [List.dropWhile_cons, ha, decide_true, if_true, List.find?_cons]
      rw [ih, decide_eq_false (by omega : ¬ c ≤ a)]
    · simp only [List.dropWhile_cons, ha, decide_false, List.find?_cons]
      rw [decide_eq_true (by omega : c ≤ a)]
      simp

/-- elements of the chunks before chunk `c` -/
theorem filter_before {pre post : List Chk} {c : Chk} (hw : ChunksWF (pre ++ c :: post)) :
    (seqElems (pre ++ c :: post)).filter (fun x => decide (x / 65536 < c.id)) = seqElems pre := by
  have hp : ChunksWF pre := ⟨hw.1.sublist (List.sublist_append_left _ _),
    fun d hd => hw.2 d (by simp [hd])⟩
  apply sorted_ext (hw.sorted.filter _) hp.sorted
  intro v
  rw [List.mem_filter, mem_seqElems hw, mem_seqElems hp, decide_eq_true_eq]
  have hlt := List.pairwise_append.mp hw.1
  constructor
  · rintro ⟨⟨d, hd, hid, hx⟩, h⟩
    rcases List.mem_append.mp hd with hd | hd
    · exact ⟨d, hd, hid, hx⟩
    · rcases List.mem_cons.mp hd with rfl | hd
      · omega
      · have := (List.pairwise_cons.mp hlt.2.1).1 d hd
        omega
  · rintro ⟨d, hd, hid, hx⟩
    refine ⟨⟨d, by simp [hd], hid, hx⟩, ?_⟩
    have := hlt.2.2 d hd c (by simp)
    omega

/-- elements of chunk `c` -/
theorem filter_chunk {cs : List Chk} {c : Chk} (hw : ChunksWF cs) (hc : c ∈ cs) :
    (seqElems cs).filter (fun x => x / 65536 == c.id) = c.elems := by
  have hcw := hw.2 c hc
  apply sorted_ext (hw.sorted.filter _) (pairwise_map_add _ hcw.2.sorted)
  intro v
  rw [List.mem_filter, mem_seqElems hw, beq_iff_eq]
  constructor
  · rintro ⟨⟨d, hd, hid, hx⟩, h⟩
    have : d = c := by
      refine Classical.byContradiction (fun hne => ?_)
      obtain ⟨i, hi, rfl⟩ := List.mem_iff_getElem.mp hd
      obtain ⟨j, hj, rfl⟩ := List.mem_iff_getElem.mp hc
      rcases Nat.lt_trichotomy i j with hij | hij | hij
      · have := List.pairwise_iff_getElem.mp hw.1 i j hi hj hij; omega
      · subst hij; exact hne rfl
      · have := List.pairwise_iff_getElem.mp hw.1 j i hj hi hij; omega
    subst this
    exact List.mem_map.mpr ⟨_, hx, by omega⟩
  · intro hx
    obtain ⟨y, hy, rfl⟩ := List.mem_map.mp hx
    have := hcw.2.bound y hy
    refine ⟨⟨c, hc, by omega, ?_⟩, by omega⟩
    rw [show (c.id * 65536 + y) % 65536 = y by omega]; exact hy

/-- C32: `skip_to_value(c)` from a fresh iterator stops at the first non-empty slice `≥ c`, with all
pointers where chunk-by-chunk `advance(c)` puts them. -/
theorem C32_skip_to_value (hv : Valid xs) (hs : Stored dbg xs pad m s) (c : Nat) :
    ∃ it ia, s.begin.skip_to_value m c = .ok it ∧ s.begin.advance m c = .ok ia ∧
      it.header = ia.header ∧ it.data = ia.data ∧ it.begin_ = ia.begin_ ∧ it.end_ = ia.end_ ∧
      it.begin_ = ((slicesOf xs).filter (fun i => decide (i < c))).length ∧
      (it.has_next = true ↔ ∃ x ∈ xs, c ≤ x / 65536) ∧
      it.id m = .ok (((slicesOf xs).find? (fun i => decide (c ≤ i))).getD 65536) := by
  have hr := hs.repr hv
  obtain ⟨it, e, hit, -⟩ := It.skip_to_value_spec (lb := c) hr.begin hr.ptrs
  obtain ⟨ia, ea, hia, -⟩ := It.advance_spec (lb := c) hr.begin
  have r1 := It.skip_to_value_reach hr.begin hr.ptrs e
  have r2 := It.advance_reach hr.begin ea
  have hsl := chunksOf_map_id xs
  have hf := fromId_map_id c (chunksOf xs)
  rw [hsl] at hf
  have hsort := (slicesOf_enumerates hv).1
  have hlen := sorted_dropWhile_length hsort c
  rw [← hf, List.length_map, ← hsl, List.length_map] at hlen
  have hb : it.begin_ + (fromId c (chunksOf xs)).length = 0 + (chunksOf xs).length := r1.2.2.1
  refine ⟨it, ia, e, ea, by have := r1.1; have := r2.1; omega,
    by have := r1.2.1; have := r2.2.1; omega, by have := r1.2.2.1; have := r2.2.2.1; omega,
    by rw [r1.2.2.2, r2.2.2.2], ?_, ?_, ?_⟩
  · rw [← hsl]; omega
  · rcases fromId_cases c (chunksOf xs) with ⟨h1, h2⟩ | ⟨pre, d, post, h1, h2, h3, h4⟩
    · rw [h1] at hit
      rw [hit.has_next_nil]
      constructor
      · intro h; cases h
      · rintro ⟨x, hx, hc⟩
        obtain ⟨d, hd, hid⟩ := (chunksOf_id hv (x / 65536)).mpr ⟨x, hx, rfl⟩
        have := h2 d hd
        omega
    · rw [h2] at hit
      rw [hit.has_next]
      refine ⟨fun _ => ?_, fun _ => rfl⟩
      obtain ⟨x, hx, hid⟩ := (chunksOf_id hv d.id).mp ⟨d, by rw [h1]; simp, rfl⟩
      exact ⟨x, hx, by omega⟩
  · rw [← dropWhile_head_find, ← hf]
    cases hfr : fromId c (chunksOf xs) with
    | nil => rw [hfr] at hit; rw [hit.id_nil]; rfl
    | cons d post => rw [hfr] at hit; rw [hit.id]; rfl

/-- C32: the data at that position is the data of that slice: decoding the chunk gives its
elements. -/
theorem C32_skip_to_value_data (hv : Valid xs) (hs : Stored dbg xs 31 m s) (c : Nat)
    {it : It} (e : s.begin.skip_to_value m c = .ok it) (hn : it.has_next = true)
    (out : List Nat) (p : Nat) (hcap : p + 65536 + 23 ≤ out.length) :
    ∃ i out', it.id m = .ok i ∧
      decode_chunk dbg' m it out p = .ok ((xs.filter (fun x => x / 65536 == i)).length, out') ∧
      Wrote out p (xs.filter (fun x => x / 65536 == i)) 23 out' := by
  have hr := hs.repr hv
  obtain ⟨it', e', hit, -⟩ := It.skip_to_value_spec (lb := c) hr.begin hr.ptrs
  rw [e] at e'
  cases e'
  rcases fromId_cases c (chunksOf xs) with ⟨h1, h2⟩ | ⟨pre, d, post, h1, h2, h3, h4⟩
  · rw [h1] at hit
    rw [hit.has_next_nil] at hn
    cases hn
  · rw [h2] at hit
    have hc := hit.wf.head.card_le
    obtain ⟨o, e1, w⟩ := decode_chunk_spec (dbg := dbg') hit (p := p) (out := out) (by omega)
    have hfc := filter_chunk hr.wf (c := d) (by rw [h1]; simp)
    rw [seqElems_chunksOf hv] at hfc
    refine ⟨d.id, o, hit.id, ?_, ?_⟩
    · rw [hfc, e1, Chk.elems, List.length_map]; rfl
    · rw [hfc]; exact w

/-- C32: `skip_to_position(r)` from a fresh iterator. -/
theorem C32_skip_to_position (hv : Valid xs) (hs : Stored dbg xs pad m s) (r : Nat) :
    ∃ it n, s.begin.skip_to_position m r = .ok (it, n) ∧
      (∀ x, xs[r]? = some x → it.has_next = true ∧ it.id m = .ok (x / 65536) ∧
        n = (xs.filter (fun y => decide (y / 65536 < x / 65536))).length) ∧
      (xs.length ≤ r → it.has_next = false ∧ n = xs.length) := by
  have hr := hs.repr hv
  obtain ⟨it, k, e, hit, hk, -, hl⟩ := It.skip_to_position_spec (rank := r) hr.begin hr.ptrs
  have hx := seqElems_chunksOf hv
  have hsum := cardSum_take_drop k (chunksOf xs)
  have htot : cardSum (chunksOf xs) = xs.length := by rw [← seqElems_length, hx]
  have hsplit : seqElems ((chunksOf xs).take k) ++ seqElems ((chunksOf xs).drop k) = xs := by
    rw [← seqElems_append, List.take_append_drop, hx]
  refine ⟨it, _, e, ?_, ?_⟩
  · intro x hxr
    cases hd : (chunksOf xs).drop k with
    | nil =>
      rw [hd] at hsum
      have : r < xs.length := (List.getElem?_eq_some_iff.mp hxr).1
      simp only [cardSum, List.map_nil, List.sum_nil] at hsum
      simp only [cardSum] at hk htot
      omega
    | cons c post =>
      rw [hd] at hit
      have hlt := hl c (by rw [hd]; rfl)
      have hpre : (chunksOf xs).take k ++ c :: post = chunksOf xs := by
        rw [← hd, List.take_append_drop]
      have hxm : x ∈ c.elems := by
        rw [← hsplit, hd, List.getElem?_append_right (by rw [seqElems_length]; omega)] at hxr
        rw [seqElems_length] at hxr
        have : seqElems (c :: post) = c.elems ++ seqElems post := by simp [seqElems]
        rw [this, List.getElem?_append_left (by
          rw [Chk.elems, List.length_map]; unfold Chk.card at hlt; omega)] at hxr
        exact List.mem_of_getElem? hxr
      have hid : x / 65536 = c.id := by
        rw [Chk.elems, List.mem_map] at hxm
        obtain ⟨y, hy, rfl⟩ := hxm
        have := hit.wf.head.2.bound y hy
        omega
      have hfb := filter_before (pre := (chunksOf xs).take k) (c := c) (post := post)
        (by rw [hpre]; exact hr.wf)
      rw [hpre, hx] at hfb
      refine ⟨hit.has_next, by rw [hit.id, hid], ?_⟩
      rw [hid, hfb, seqElems_length]
  · intro hge
    cases hd : (chunksOf xs).drop k with
    | nil =>
      rw [hd] at hit hsum
      refine ⟨hit.has_next_nil, ?_⟩
      have : cardSum ([] : List Chk) = 0 := rfl
      omega
    | cons c post =>
      rw [hd] at hsum
      have hlt := hl c (by rw [hd]; rfl)
      have : cardSum (c :: post) = c.card + cardSum post := cardSum_cons _ _
      omega

example : ∃ m s it, Stored true [3, 5, 300, 70000] 31 m s ∧ s.begin.skip_to_value m 1 = .ok it ∧
    it.id m = .ok 1 ∧ it.has_next = true := by
  obtain ⟨m, s, h⟩ := stored_exists true small_valid 31
  obtain ⟨it, ia, e, -, -, -, -, -, -, hn, hid⟩ := C32_skip_to_value small_valid h 1
  have hn' := hn.mpr ⟨70000, by simp, by omega⟩
  refine ⟨m, s, it, h, e, ?_, hn'⟩
  rw [hid]
  have hen := slicesOf_enumerates small_valid
  have : slicesOf [3, 5, 300, 70000] = [0, 1] := by
    apply hen.unique
    refine ⟨by simp, ?_⟩
    intro v
    simp
    omega
  rw [this]
  simp

example : ∃ m s it n, Stored true [3, 5, 300, 70000] 0 m s ∧ s.begin.skip_to_position m 3 = .ok (it, n) ∧
    it.id m = .ok 1 ∧ n = 3 := by
  obtain ⟨m, s, h⟩ := stored_exists true small_valid 0
  obtain ⟨it, n, h1, h2, -⟩ := C32_skip_to_position small_valid h 3
  exact ⟨m, s, it, n, h, h1, (h2 70000 rfl).2.1, (h2 70000 rfl).2.2⟩

end Sliced
