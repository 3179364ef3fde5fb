import Verif.Props.Size
import Verif.Props.Queries
import Verif.Props.SetOps
/-!
# What a query depends on (C57)

An encoding of which parts have been overwritten, or can no longer be read, still answers the
queries that do not concern those parts.  First it is specified where the bytes of each slice are;
nothing of the model is used in these definitions.
-/
namespace Sliced

/-- where the bytes of slice `i` begin, counted from the start of the encoding: after the number of
slices (2 bytes), the skip pointers (8 bytes for every 32 slices), the headers (8 bytes for every
slice) and the bytes of the slices before it -/
def sliceStart (xs : List Nat) (i : Nat) : Nat :=
  2 + 8 * ((slicesOf xs).length / 32) + 8 * (slicesOf xs).length
    + (((slicesOf xs).filter (fun j => decide (j < i))).map (sliceBytes xs)).sum

/-- The bytes `bytes` of the encoding of `xs` are in memory from address `a` on, except that the
bytes of the slices in `D` may have been replaced by any others, or be unreadable. -/
def LoadedBut (D : Nat → Prop) (xs : List Nat) (m : Mem) (a : Nat) (bytes : List UInt8) : Prop :=
  ∀ (i : Nat) (b : UInt8), bytes[i]? = some b →
    (∀ j ∈ slicesOf xs, D j → ¬ (sliceStart xs j ≤ i ∧ i < sliceStart xs j + sliceBytes xs j)) →
    m (a + i) = some b

/-- `Stored` for a damaged encoding.  Nothing is said about the memory after the encoding. -/
def StoredBut (D : Nat → Prop) (dbg : Bool) (xs : List Nat) (m : Mem) (a : Nat) (s : SSeq) : Prop :=
  ∃ st bytes, build_sequence dbg xs [] = .ok (st, bytes) ∧ LoadedBut D xs m a bytes ∧
    SSeq.ofAddr m a = .ok s

/-! ## From there to the representation -/

theorem slicesOf_sorted (xs : List Nat) : (slicesOf xs).Pairwise (· < ·) :=
  List.pairwise_lt_range.filter _

theorem sum_filter_lt {L : List Nat} (hs : L.Pairwise (· < ·)) {f : Nat → Nat} {i j : Nat}
    (hj : j ∈ L) (hij : j < i) :
    ((L.filter (fun k => decide (k < j))).map f).sum + f j
      ≤ ((L.filter (fun k => decide (k < i))).map f).sum := by
  induction L with
  | nil => cases hj
  | cons b L ih =>
    rw [List.pairwise_cons] at hs
    rcases List.mem_cons.mp hj with rfl | hj
    · have h0 : (L.filter (fun k => decide (k < j))) = [] := by
        rw [List.filter_eq_nil_iff]
        intro k hk
        have := hs.1 k hk
        simp; omega
      simp [List.filter_cons, hij, h0]
    · have := ih hs.2 hj
      have hb := hs.1 j hj
      have e1 : decide (b < j) = true := by simpa using hb
      have e2 : decide (b < i) = true := by simp; omega
      simp only [List.filter_cons, e1, e2, if_true, List.map_cons, List.sum_cons]
      omega

/-- the slices do not overlap -/
theorem sliceStart_lt {xs : List Nat} {i j : Nat} (hj : j ∈ slicesOf xs) (hij : j < i) :
    sliceStart xs j + sliceBytes xs j ≤ sliceStart xs i := by
  have := sum_filter_lt (slicesOf_sorted xs) (f := sliceBytes xs) hj hij
  unfold sliceStart
  omega

theorem sliceStart_chunk {xs : List Nat} {pre post : List Chk} {c : Chk}
    (h : chunksOf xs = pre ++ c :: post) (hw : ChunksWF (chunksOf xs)) :
    sliceStart xs c.id = dirSize (chunksOf xs).length + offSum pre := by
  unfold sliceStart dirSize
  rw [chunksOf_length]
  have hp := hw.1
  rw [h, List.pairwise_append] at hp
  have h1 : (slicesOf xs).filter (fun j => decide (j < c.id)) = pre.map Chk.id := by
    rw [← chunksOf_map_id, h, List.map_append, List.filter_append, List.map_cons]
    rw [List.filter_eq_self.mpr, List.filter_eq_nil_iff.mpr, List.append_nil]
    · intro j hj
      rcases List.mem_cons.mp hj with rfl | hj
      · simp
      · obtain ⟨d, hd, rfl⟩ := List.mem_map.mp hj
        have := (List.pairwise_cons.mp hp.2.1).1 d hd
        simp; omega
    · intro j hj
      obtain ⟨d, hd, rfl⟩ := List.mem_map.mp hj
      simpa using hp.2.2 d hd c (by simp)
  have h2 : (pre.map Chk.id).map (sliceBytes xs) = pre.map (fun d => d.body.off) := by
    rw [List.map_map]
    exact List.map_congr_left (fun d hd => (chunksOf_body (by rw [h]; simp [hd])).symm)
  rw [h1, h2]
  rfl

variable {D : Nat → Prop} {dbg dbg' : Bool} {xs : List Nat} {m : Mem} {a : Nat} {s : SSeq}

theorem LoadedBut.dir (h : LoadedBut D xs m a (seqBytes (chunksOf xs))) :
    Loaded m a (dirBytes (chunksOf xs)) := by
  intro i b hb
  have hi := (List.getElem?_eq_some_iff.mp hb).1
  rw [dirBytes_length, chunksOf_length] at hi
  refine h i b (by rw [seqBytes_split, List.getElem?_append_left
    (List.getElem?_eq_some_iff.mp hb).1]; exact hb) ?_
  intro j _ _ hc
  have : dirSize (slicesOf xs).length ≤ sliceStart xs j := by
    unfold dirSize sliceStart; omega
  omega

theorem LoadedBut.at {pad : Nat} (hv : Valid xs)
    (h : LoadedBut D xs m a (seqBytes (chunksOf xs)))
    (hpad : pad = 0 ∨ Readable m a ((seqBytes (chunksOf xs)).length + pad)) :
    ∃ s, SSeq.ofAddr m a = .ok s ∧
      SeqAtP (fun dp c => ¬ D c.id → BodyAt pad m dp c.body) m s (chunksOf xs) := by
  have hw := chunksOf_wf hv.2.1
  have hsm : ∀ c ∈ chunksOf xs, c.Small := chunksOf_small hv.2.1
  obtain ⟨s, e, hs, -⟩ := seqAtP_of_loaded (a := a) (m := m)
    (B := fun dp c => ¬ D c.id → BodyAt pad m dp c.body) hw hsm (chunksOf_ne_nil hv)
    h.dir
    (by
      intro pre c post he hk
      have hst := sliceStart_chunk he hw
      have hcm : c ∈ chunksOf xs := by rw [he]; simp
      have hld : Loaded m (a + dirSize (chunksOf xs).length + offSum pre) (bodyBytes c.body) := by
        intro i b hb
        have hi := (List.getElem?_eq_some_iff.mp hb).1
        rw [bodyBytes_length, chunksOf_body hcm] at hi
        have := h (dirSize (chunksOf xs).length + (offSum pre + i)) b (by
            have hbb : (chunksOf xs).flatMap (fun c => bodyBytes c.body)
                = pre.flatMap (fun c => bodyBytes c.body) ++ (bodyBytes c.body
                  ++ post.flatMap (fun c => bodyBytes c.body)) := by
              rw [he, List.flatMap_append, List.flatMap_cons]
            rw [seqBytes_split, List.getElem?_append_right (by rw [dirBytes_length]; omega),
              dirBytes_length, Nat.add_sub_cancel_left, hbb,
              List.getElem?_append_right (by rw [chunksData_length]; omega),
              chunksData_length, Nat.add_sub_cancel_left,
              List.getElem?_append_left (List.getElem?_eq_some_iff.mp hb).1]
            exact hb) (by
          intro j hj hDj hc
          rcases Nat.lt_trichotomy j c.id with hlt | heq | hgt
          · have := sliceStart_lt hj hlt
            omega
          · subst heq; exact hk hDj
          · have := sliceStart_lt (xs := xs) (i := j) (j := c.id) (by
              rw [← chunksOf_map_id]; exact List.mem_map_of_mem hcm) hgt
            omega)
        rw [Nat.add_assoc, Nat.add_assoc]; exact this
      refine bodyAt_of_loaded (hw.2 c hcm).2 hld ?_
      rcases hpad with rfl | hr
      · have := hld.readable
        rwa [bodyBytes_length] at this
      · have hl : (seqBytes (chunksOf xs)).length
            = dirSize (chunksOf xs).length + (offSum pre + (c.body.off + offSum post)) := by
          rw [seqBytes_split, List.length_append, dirBytes_length, chunksData_length]
          have : offSum (chunksOf xs) = offSum pre + (c.body.off + offSum post) := by
            rw [he]; simp [offSum]
          rw [this]
        rw [hl] at hr
        rw [Nat.add_assoc]
        exact hr.shift (by omega))
  exact ⟨s, e, hs⟩

/-- Slices without bytes cannot be damaged. -/
theorem LoadedBut.spare {bytes : List UInt8} (h : LoadedBut D xs m a bytes) :
    LoadedBut (fun i => D i ∧ sliceBytes xs i ≠ 0) xs m a bytes := by
  intro i b hb hn
  refine h i b hb ?_
  intro j hj hD hc
  exact hn j hj ⟨hD, by omega⟩ hc

theorem StoredBut.reprPad {pad : Nat} (hv : Valid xs) (h : StoredBut D dbg xs m a s)
    (hp : pad = 0 ∨ Readable m a (encodedSize xs + pad)) :
    SeqAtP (fun dp c => ¬ (D c.id ∧ sliceBytes xs c.id ≠ 0) → BodyAt pad m dp c.body) m s
      (chunksOf xs) := by
  obtain ⟨st, bytes, h1, h2, h4⟩ := h
  obtain ⟨st', k, e, -⟩ := build_sequence_spec (dbg := dbg) hv []
  rw [h1] at e
  simp only [List.nil_append, Except.ok.injEq, Prod.mk.injEq] at e
  obtain ⟨-, rfl⟩ := e
  obtain ⟨s', e, hs⟩ := h2.spare.at (pad := pad) hv (by rw [seqBytes_size]; exact hp)
  rw [h4] at e
  cases e
  exact hs

theorem StoredBut.repr (hv : Valid xs) (h : StoredBut D dbg xs m a s) :
    SeqAtP (fun dp c => ¬ (D c.id ∧ sliceBytes xs c.id ≠ 0) → BodyAt 0 m dp c.body) m s
      (chunksOf xs) := h.reprPad hv (Or.inl rfl)

/-! ## The properties -/

/-- The bytes of slice `i` are all there: it is not damaged, or it has none. -/
def Spared (D : Nat → Prop) (xs : List Nat) (i : Nat) : Prop := D i → sliceBytes xs i = 0

theorem Spared.not {i : Nat} (h : Spared D xs i) : ¬ (D i ∧ sliceBytes xs i ≠ 0) :=
  fun hc => hc.2 (h hc.1)

theorem sum_zeros (L : List Nat) : (L.map (fun _ => 0)).sum = 0 := by
  induction L with
  | nil => rfl
  | cons b L ih => rw [List.map_cons, List.sum_cons, ih]

theorem sliceBytes_zero {i : Nat} (h : sliceCard xs i = 0 ∨ sliceCard xs i = 65536) :
    sliceBytes xs i = 0 := by
  rcases h with h | h
  · unfold sliceBytes
    rw [if_neg (by omega)]
    have h0 : sparseCost xs i = 0 := by
      unfold sparseCost
      have : (List.range 256).map (fun b => blockCost (blockCard xs (256 * i + b)))
          = (List.range 256).map (fun _ => 0) := by
        apply List.map_congr_left
        intro b hb
        have hb := List.mem_range.mp hb
        have : blockCard xs (256 * i + b) = 0 := by
          unfold blockCard
          unfold sliceCard at h
          rw [List.length_eq_zero_iff, List.filter_eq_nil_iff] at h ⊢
          intro x hx
          have := h x hx
          simp only [beq_iff_eq] at this ⊢
          omega
        rw [this]; rfl
      rw [this]; exact sum_zeros _
    rw [if_pos ⟨by omega, by omega⟩, h0]
  · unfold sliceBytes
    rw [if_pos h]

/-- C57: a slice has no bytes exactly when it is empty or full. -/
theorem C57_no_bytes (hv : Valid xs) {i : Nat} (hi : i < 65535) :
    sliceBytes xs i = 0 ↔ sliceCard xs i = 0 ∨ sliceCard xs i = 65536 := by
  constructor
  · intro h
    rcases Nat.eq_zero_or_pos (sliceCard xs i) with h0 | hpos
    · exact Or.inl h0
    · right
      have hm : i ∈ (chunksOf xs).map Chk.id := by
        rw [chunksOf_map_id]
        unfold slicesOf
        rw [List.mem_filter, List.mem_range]
        exact ⟨hi, by simp; omega⟩
      obtain ⟨c, hc, rfl⟩ := List.mem_map.mp hm
      have hw := ((chunksOf_wf hv.2.1).2 c hc).2
      have ho := chunksOf_body hc
      have hcard : c.body.vals.length = sliceCard xs c.id := by
        rw [(mem_chunksTo.mp hc).2.1, bodyOf_vals (chunkVals_sorted hv.2.1 _) chunkVals_lt,
          chunkVals_length]
      cases hb : c.body with
      | full => rw [hb] at hcard; rw [← hcard]; exact List.length_range
      | dense vs => rw [hb] at ho; simp only [Body.off] at ho; omega
      | sparse bs =>
        rw [hb] at ho hw
        have := List.length_pos_iff.mpr hw.1
        simp only [Body.off] at ho; omega
  · exact sliceBytes_zero

/-- C57: the bytes of the slices are apart from each other and inside the encoding. -/
theorem C57_slices_apart {i j : Nat} (hi : i ∈ slicesOf xs) (hj : j ∈ slicesOf xs) :
    (j < i → sliceStart xs j + sliceBytes xs j ≤ sliceStart xs i) ∧
      sliceStart xs i + sliceBytes xs i ≤ encodedSize xs := by
  refine ⟨sliceStart_lt hj, ?_⟩
  have h1 := sliceStart_lt (xs := xs) (i := 65535) hi (by
    have := (List.mem_filter.mp hi).1
    exact List.mem_range.mp this)
  have h2 : (slicesOf xs).filter (fun j => decide (j < 65535)) = slicesOf xs := by
    rw [List.filter_eq_self]
    intro k hk
    simpa using List.mem_range.mp (List.mem_filter.mp hk).1
  have h3 : sliceStart xs 65535 = encodedSize xs := by
    unfold sliceStart encodedSize
    rw [h2, sum_map_add_const]
    omega
  omega

/-- C57: a damaged encoding can still be opened; the number of slices is right. -/
theorem C57_open (hv : Valid xs) {st : Stats} {bytes : List UInt8}
    (hb : build_sequence dbg xs [] = .ok (st, bytes)) (h : LoadedBut D xs m a bytes) :
    ∃ s, SSeq.ofAddr m a = .ok s ∧ StoredBut D dbg xs m a s ∧ s.chunks = (slicesOf xs).length := by
  obtain ⟨st', k, e, -⟩ := build_sequence_spec (dbg := dbg) hv []
  rw [hb] at e
  simp only [List.nil_append, Except.ok.injEq, Prod.mk.injEq] at e
  obtain ⟨-, rfl⟩ := e
  obtain ⟨s, e, hs⟩ := h.at (pad := 0) hv (Or.inl rfl)
  exact ⟨s, e, ⟨st, _, hb, h, e⟩, by rw [hs.chunks, chunksOf_length]⟩

/-- C57: the cardinality is right whatever is damaged. -/
theorem C57_cardinality (hv : Valid xs) (h : StoredBut D dbg xs m a s) :
    s.cardinality m = .ok xs.length ∧ s.size m = .ok xs.length := by
  have h := SSeq.cardinality_spec (h.repr hv)
  rw [seqElems_chunksOf hv] at h
  exact ⟨h, h⟩

/-- C57: `contains(v)` is right if the slice of `v` is spared. -/
theorem C57_contains (hv : Valid xs) (h : StoredBut D dbg xs m a s) {v : Nat} (h32 : v < 4294967296)
    (hD : Spared D xs (v / 65536)) : s.contains dbg' m v = .ok (decide (v ∈ xs)) := by
  have h := SSeq.contains_specP (dbg := dbg') (pad := 0) (h.repr hv) h32 (by
    intro dp c hc hb
    exact hb (by rw [hc]; exact hD.not))
  rwa [seqElems_chunksOf hv] at h

/-- C57: `select(r)` is right if the slice of the `r`-th element is spared. -/
theorem C57_select (hv : Valid xs) (h : StoredBut D dbg xs m a s) {r : Nat} (hr : r < xs.length)
    (hD : Spared D xs (xs[r] / 65536)) (value : Nat) :
    s.select dbg' m r value = .ok (true, xs[r]) := by
  have hlt : xs.length ≤ 4294901760 := by
    have := sorted_length_le' hv.2.1 hv.2.2
    omega
  have h' := SSeq.select_specP (dbg := dbg') (pad := 0) (h.repr hv) (r := r) (by omega) value (by
    intro dp c x hx hc hb
    rw [seqElems_chunksOf hv, List.getElem?_eq_getElem hr] at hx
    cases hx
    exact hb (by rw [hc]; exact hD.not))
  rwa [seqElems_chunksOf hv, List.getElem?_eq_getElem hr] at h'

/-- C57: a rank out of range is recognised whatever is damaged. -/
theorem C57_select_out (hv : Valid xs) (h : StoredBut D dbg xs m a s) {r : Nat} (hr : xs.length ≤ r)
    (h32 : r < 4294967296) (value : Nat) : s.select dbg' m r value = .ok (false, value) := by
  have h' := SSeq.select_specP (dbg := dbg') (pad := 0) (h.repr hv) h32 value (by
    intro dp c x hx
    rw [seqElems_chunksOf hv, List.getElem?_eq_none hr] at hx
    cases hx)
  rwa [seqElems_chunksOf hv, List.getElem?_eq_none hr] at h'

theorem geq_eq {v x : Nat} (hs : xs.Pairwise (· < ·)) (hx : x ∈ xs) (hge : v ≤ x)
    (hleast : ∀ y ∈ xs, v ≤ y → x ≤ y) : geq v xs = some x := by
  unfold geq
  cases e : xs.find? (fun y => decide (v ≤ y)) with
  | none =>
    have := List.find?_eq_none.mp e x hx
    simp at this; omega
  | some y =>
    have hy := List.mem_of_find?_eq_some e
    have hp := List.find?_some e
    simp at hp
    have h1 := hleast y hy hp
    rw [List.find?_eq_some_iff_append] at e
    obtain ⟨-, as, bs, rfl, h3⟩ := e
    have h2 : y ≤ x := by
      rcases List.mem_append.mp hx with hx | hx
      · have := h3 x hx; simp at this; omega
      · rcases List.mem_cons.mp hx with rfl | hx
        · exact Nat.le_refl _
        · have := (List.pairwise_cons.mp (List.pairwise_append.mp hs).2.1).1 x hx
          omega
    exact congrArg some (Nat.le_antisymm h2 h1)

theorem geq_none {v : Nat} (hnone : ∀ y ∈ xs, y < v) : geq v xs = none := by
  unfold geq
  rw [List.find?_eq_none]
  intro x hx
  have := hnone x hx
  simp; omega

/-- C57: `next_geq(v)` is right if the slices of `v` and of the answer are spared. -/
theorem C57_next_geq (hv : Valid xs) (h : StoredBut D dbg xs m a s) {v x : Nat} (h32 : v < 4294967296)
    (hx : x ∈ xs) (hge : v ≤ x) (hleast : ∀ y ∈ xs, v ≤ y → x ≤ y)
    (hD : Spared D xs (v / 65536)) (hD' : Spared D xs (x / 65536)) :
    s.next_geq dbg' m v = .ok x := by
  have hg := geq_eq hv.2.1 hx hge hleast
  have h' := SSeq.next_geq_specP (dbg := dbg') (pad := 0) (h.repr hv) h32
    (fun dp c hc hb => hb (by rw [hc]; exact hD.not)) (by
      intro dp c y hy hc hb
      rw [seqElems_chunksOf hv, hg] at hy
      cases hy
      exact hb (by rw [hc]; exact hD'.not))
  rwa [seqElems_chunksOf hv, hg] at h'

/-- C57: the same when there is no element `≥ v`. -/
theorem C57_next_geq_none (hv : Valid xs) (h : StoredBut D dbg xs m a s) {v : Nat}
    (h32 : v < 4294967296) (hnone : ∀ y ∈ xs, y < v) (hD : Spared D xs (v / 65536)) :
    s.next_geq dbg' m v = .ok 4294967295 := by
  have hg := geq_none hnone
  have h' := SSeq.next_geq_specP (dbg := dbg') (pad := 0) (h.repr hv) h32
    (fun dp c hc hb => hb (by rw [hc]; exact hD.not)) (by
      intro dp c y hy
      rw [seqElems_chunksOf hv, hg] at hy
      cases hy)
  rwa [seqElems_chunksOf hv, hg] at h'

/-- C57: `pairwise_intersection` is right if the slices that occur in both lists are spared in both
encodings.  Here the damaged bytes, and 31 bytes after the encodings, must be readable. -/
theorem C57_intersection {D₁ D₂ : Nat → Prop} {dbg₁ dbg₂ : Bool} {tab : Nat → List Nat}
    {ys Z : List Nat} {a b : Nat} {l r : SSeq} (ht : TabOk tab) (hx : Valid xs) (hy : Valid ys)
    (hl : StoredBut D₁ dbg₁ xs m a l) (hr : StoredBut D₂ dbg₂ ys m b r)
    (rl : Readable m a (encodedSize xs + 31)) (rr : Readable m b (encodedSize ys + 31))
    (hD : ∀ i, sliceCard xs i ≠ 0 → sliceCard ys i ≠ 0 → Spared D₁ xs i ∧ Spared D₂ ys i)
    (hZ : Enumerates Z (fun v => v ∈ xs ∧ v ∈ ys)) (x : List Nat) (hs : x.length = 1024)
    (out : List Nat) (p : Nat) (hcap : p + Z.length + 23 ≤ out.length) :
    ∃ x' out', pairwise_intersection dbg tab m l r x out p = .ok (Z.length, x', out') ∧
      x'.length = 1024 ∧ Wrote out p Z 23 out' := by
  have e : Z = inter (seqElems (chunksOf xs)) (seqElems (chunksOf ys)) := by
    rw [seqElems_chunksOf hx, seqElems_chunksOf hy]
    exact hZ.unique (enumerates_inter hx)
  rw [e] at hcap ⊢
  have hcard : ∀ (zs : List Nat) (c : Chk), c ∈ chunksOf zs → sliceCard zs c.id ≠ 0 := by
    intro zs c hc h0
    have hne := (mem_chunksTo.mp hc).2.2
    have := List.length_pos_iff.mpr hne
    rw [chunkVals_length] at this
    omega
  refine pairwise_intersection_specP ht (hl.reprPad hx (Or.inr rl)) (hr.reprPad hy (Or.inr rr))
    ?_ ?_ hs hcap
  · intro dp c hc d hd hid hb
    exact hb (hD c.id (hcard xs c hc) (by rw [hid]; exact hcard ys d hd)).1.not
  · intro dp c hc d hd hid hb
    exact hb (hD c.id (by rw [hid]; exact hcard xs d hd) (hcard ys c hc)).2.not

/-! ## Sharpness -/

theorem StoredBut.positions (hv : Valid xs) (h : StoredBut D dbg xs m a s) :
    SeqAtP (fun dp c => dp = a + sliceStart xs c.id) m s (chunksOf xs) := by
  obtain ⟨st, bytes, h1, h2, h4⟩ := h
  obtain ⟨st', k, e, -⟩ := build_sequence_spec (dbg := dbg) hv []
  rw [h1] at e
  simp only [List.nil_append, Except.ok.injEq, Prod.mk.injEq] at e
  obtain ⟨-, rfl⟩ := e
  obtain ⟨s', e, hs, -⟩ := seqAtP_of_loaded (a := a) (m := m)
    (B := fun dp c => dp = a + sliceStart xs c.id) (chunksOf_wf hv.2.1) (chunksOf_small hv.2.1)
    (chunksOf_ne_nil hv) (h2.dir) (by
      intro pre c post he
      rw [sliceStart_chunk he (chunksOf_wf hv.2.1), Nat.add_assoc])
  rw [h4] at e
  cases e
  exact hs

theorem rd8_none {p : Nat} (h : m p = none) : rd8 m p = .error .ub := by
  unfold rd8; rw [h]

theorem memWords_none {p i : Nat} (h : m (p + 8 * i) = none) : memWords m p i = .error .ub := by
  unfold memWords rd64 rd32 rd16
  rw [rd8_none h]; rfl

/-- C57: conversely, the bytes of the slice of `v` are needed: if none of them can be read (and
there are any), `contains(v)` reads outside the memory. -/
theorem C57_contains_needs (hv : Valid xs) (h : StoredBut D dbg xs m a s) {v : Nat}
    (hb : sliceBytes xs (v / 65536) ≠ 0)
    (hn : ∀ j, j < sliceBytes xs (v / 65536) → m (a + sliceStart xs (v / 65536) + j) = none) :
    s.contains dbg' m v = .error .ub := by
  have hpos := h.positions hv
  have hc0 : sliceCard xs (v / 65536) ≠ 0 := fun h0 => hb (sliceBytes_zero (Or.inl h0))
  have hmem : v / 65536 ∈ slicesOf xs := by
    unfold slicesOf
    rw [List.mem_filter, List.mem_range]
    refine ⟨?_, by simpa using hc0⟩
    obtain ⟨x, hx⟩ := List.exists_mem_of_length_pos (Nat.pos_of_ne_zero hc0)
    rw [List.mem_filter, beq_iff_eq] at hx
    have := hv.2.2 x hx.1
    omega
  unfold SSeq.contains
  obtain ⟨it, e, hit, -⟩ := It.skip_to_value_spec (lb := v / 65536) hpos.begin hpos.ptrs
  simp only [e, ok_bind]
  rw [← chunksOf_map_id] at hmem
  obtain ⟨d, hd, hdid⟩ := List.mem_map.mp hmem
  rcases fromId_cases (v / 65536) (chunksOf xs) with ⟨h1, h2⟩ | ⟨pre, c, post, h1, h2, h3, h4⟩
  · have := h2 d hd; omega
  · rw [h2] at hit
    have hcid : c.id = v / 65536 := by
      rw [h1] at hd
      rcases List.mem_append.mp hd with hd | hd
      · have := h3 d hd; omega
      · rcases List.mem_cons.mp hd with rfl | hd
        · exact hdid
        · have := hit.wf.head_lt d hd; omega
    rw [hit.id]
    simp only [ok_bind, if_pos hcid]
    have hdat : it.data = a + sliceStart xs c.id := hit.at_.2.1
    have hoff := chunksOf_body (show c ∈ chunksOf xs by rw [h1]; simp)
    rw [hcid] at hdat hoff
    rw [← hoff] at hn
    have hw := hit.wf.head.2
    cases hbd : c.body with
    | full =>
      rw [hbd] at hoff
      have h0 : Body.full.off = 0 := rfl
      rw [h0] at hoff
      exact (hb hoff.symm).elim
    | dense vs =>
      rw [hbd] at hn
      rw [hit.type_dense hbd]
      have := memWords_none (m := m) (p := it.data) (i := v % 65536 / 64) (by
        rw [hdat]; exact hn _ (by simp only [Body.off]; omega))
      simp only [ok_bind, type_sparse, type_dense, if_true, Nat.reduceEqDiff, if_false]
      unfold bitmap_contains
      rw [this]; rfl
    | sparse bs =>
      rw [hbd] at hn hw
      have hl := List.length_pos_iff.mpr hw.1
      have hl2 := hw.2.length_le
      rw [hit.type_sparse hbd, hit.blocks_sparse hbd]
      simp only [ok_bind, if_true, contains_sparse_chunk]
      rw [cassert_of (by simp; omega)]
      simp only [ok_bind, contains_sparse_chunk_loop]
      have h0 := hn 0 (by simp only [Body.off]; omega)
      rw [Nat.add_zero, ← hdat] at h0
      rw [if_neg (by omega), rd8_none h0]
      rfl

/-! ## Examples -/

/-- Every valid list can be stored with the bytes of any slices missing. -/
theorem storedBut_exists (D : Nat → Prop) (dbg : Bool) (hv : Valid xs) :
    ∃ m a s, StoredBut D dbg xs m a s ∧
      ∀ i ∈ slicesOf xs, D i → ∀ j, j < sliceBytes xs i → m (a + sliceStart xs i + j) = none := by
  classical
  obtain ⟨st, k, hb, -⟩ := build_sequence_spec (dbg := dbg) hv []
  rw [List.nil_append] at hb
  let lost : Nat → Prop := fun p =>
    ∃ j ∈ slicesOf xs, D j ∧ sliceStart xs j ≤ p ∧ p < sliceStart xs j + sliceBytes xs j
  let m : Mem := fun p => if lost p then none else memOf 0 (seqBytes (chunksOf xs)) 0 p
  have hl : LoadedBut D xs m 0 (seqBytes (chunksOf xs)) := by
    intro i b hi hn
    show (if lost (0 + i) then none else memOf 0 (seqBytes (chunksOf xs)) 0 (0 + i)) = some b
    rw [if_neg]
    · exact loaded_memOf 0 _ 0 i b hi
    · rintro ⟨j, hj, hD, hc⟩
      rw [Nat.zero_add] at hc
      exact hn j hj hD hc
  obtain ⟨s, -, hs, -⟩ := C57_open hv hb hl
  refine ⟨m, 0, s, hs, ?_⟩
  intro i hi hD j hj
  show (if lost (0 + sliceStart xs i + j) then none else _) = none
  rw [if_pos ⟨i, hi, hD, by omega, by omega⟩]

/-- The list 3, 5, 300, 70000 with the bytes of slice 0 missing: queries about slice 1 and about
the empty slices are answered, those about slice 0 read outside the memory. -/
example : ∃ m a s, StoredBut (· = 0) true [3, 5, 300, 70000] m a s ∧
    s.size m = .ok 4 ∧ s.contains false m 70000 = .ok true ∧ s.contains false m 70001 = .ok false ∧
    s.select false m 3 0 = .ok (true, 70000) ∧ s.select false m 4 9 = .ok (false, 9) ∧
    s.next_geq false m 65536 = .ok 70000 ∧ s.next_geq false m 200000 = .ok 4294967295 ∧
    s.contains false m 300 = .error .ub := by
  obtain ⟨m, a, s, h, hn⟩ := storedBut_exists (· = 0) true small_valid
  have sp : ∀ i, i ≠ 0 → Spared (· = 0) [3, 5, 300, 70000] i := fun i hi h0 => absurd h0 hi
  have h0 : 0 ∈ slicesOf [3, 5, 300, 70000] := by
    unfold slicesOf
    rw [List.mem_filter, List.mem_range]
    exact ⟨by omega, by decide⟩
  refine ⟨m, a, s, h, (C57_cardinality small_valid h).2, ?_, ?_, ?_, ?_, ?_, ?_, ?_⟩
  · rw [C57_contains small_valid h (by omega) (sp _ (by omega))]; simp
  · rw [C57_contains small_valid h (by omega) (sp _ (by omega))]; simp
  · exact C57_select small_valid h (r := 3) (by simp) (sp _ (by simp)) 0
  · exact C57_select_out small_valid h (by simp) (by omega) 9
  · exact C57_next_geq small_valid h (by omega) (by simp) (by omega) (by simp) (sp _ (by omega))
      (sp _ (by omega))
  · exact C57_next_geq_none small_valid h (by omega) (by simp) (sp _ (by omega))
  · refine C57_contains_needs small_valid h ?_ (hn 0 h0 rfl)
    intro hz
    rw [C57_no_bytes small_valid (by omega)] at hz
    revert hz
    decide

/-- Two valid lists can be stored in one memory, the first with the bytes of any slices zeroed. -/
theorem storedBut_pair (D : Nat → Prop) (dbg : Bool) {ys : List Nat} (hx : Valid xs)
    (hy : Valid ys) :
    ∃ m a b l r, StoredBut D dbg xs m a l ∧ StoredBut (fun _ => False) dbg ys m b r ∧
      Readable m a (encodedSize xs + 31) ∧ Readable m b (encodedSize ys + 31) ∧
      ∀ i ∈ slicesOf xs, D i → ∀ j, j < sliceBytes xs i → m (a + sliceStart xs i + j) = some 0 := by
  classical
  obtain ⟨m, l, r, a, b, bx, bY, ⟨⟨st, hb⟩, l1, r1, -⟩, ⟨⟨st', hb'⟩, l2, r2, -⟩, hab⟩ :=
    stored_pair dbg hx hy 31
  have sx := C35_exact_size hx hb
  have sy := C35_exact_size hy hb'
  let lost : Nat → Prop := fun p =>
    ∃ j ∈ slicesOf xs, D j ∧ a + sliceStart xs j ≤ p ∧ p < a + sliceStart xs j + sliceBytes xs j
  let m' : Mem := fun p => if lost p then some 0 else m p
  have hm : ∀ p, ¬ lost p → m' p = m p := fun p hp => if_neg hp
  have hrd : ∀ p n, Readable m p n → Readable m' p n := by
    intro p n h i hi
    by_cases hl : lost (p + i)
    · have : m' (p + i) = some 0 := if_pos hl
      rw [this]; rfl
    · rw [hm _ hl]; exact h i hi
  have hl : LoadedBut D xs m' a bx := by
    intro i c hi hn
    rw [hm]
    · exact l1 i c hi
    · rintro ⟨j, hj, hD, hc⟩
      exact hn j hj hD (by omega)
  have hl' : LoadedBut (fun _ => False) ys m' b bY := by
    intro i c hi _
    rw [hm]
    · exact l2 i c hi
    · rintro ⟨j, hj, hD, hc⟩
      have := (C57_slices_apart hj hj).2
      omega
  obtain ⟨s, -, hs, -⟩ := C57_open hx hb hl
  obtain ⟨s', -, hs', -⟩ := C57_open hy hb' hl'
  refine ⟨m', a, b, s, s', hs, hs', ?_, ?_, ?_⟩
  · rw [← sx]; exact hrd _ _ (l1.readable.append r1)
  · rw [← sy]; exact hrd _ _ (l2.readable.append r2)
  · intro i hi hD j hj
    exact if_pos ⟨i, hi, hD, by omega, by omega⟩

/-- Slice 0 of the first list has been zeroed; the lists have only slice 1 in common. -/
example : ∃ m a b l r x' out', StoredBut (· = 0) true [3, 5, 300, 70000] m a l ∧
    StoredBut (fun _ => False) true [70000, 70001] m b r ∧
    pairwise_intersection false stdTab m l r (List.replicate 1024 5) (List.replicate 24 9) 0
      = .ok (1, x', out') ∧ out'.take 1 = [70000] := by
  have hy : Valid [70000, 70001] := ⟨by simp, by simp, by simp⟩
  obtain ⟨m, a, b, l, r, hl, hr, rl, rr, -⟩ := storedBut_pair (· = 0) true small_valid hy
  obtain ⟨x', out', e, -, w⟩ := C57_intersection (dbg := false) stdTab_ok small_valid hy hl hr rl rr (by
      intro i _ hi
      refine ⟨?_, fun h => h.elim⟩
      rintro rfl
      exact absurd rfl hi) (Z := [70000]) ⟨by simp, by intro v; simp; omega⟩
    (List.replicate 1024 5) List.length_replicate (List.replicate 24 9) 0 (by simp)
  exact ⟨m, a, b, l, r, x', out', hl, hr, e, w.take_zero⟩

end Sliced
