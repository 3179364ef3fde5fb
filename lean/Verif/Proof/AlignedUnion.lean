import Verif.Proof.AlignedIntersect
import Verif.Proof.TailUnion
/-! # pairwise_union with checked alignment: the same result, or undefined -/
namespace Sliced

/-! ## Blocks -/

theorem ds_union_block_aligned {m : Mem} {l r card base out : Nat} {x buf : List Nat}
    {o : Nat × List Nat × List Nat} (h : ds_union_block m l r card base x buf out = .ok o) :
    Gated (l % 8 = 0) (ds_union_blockA m l r card base x buf out) (.ok o) := by
  unfold ds_union_block at h
  unfold ds_union_blockA
  refine (Gated.step (P := True) (Q := l % 8 = 0) h (fun _ e => Gated.same e) ?_).iff
    (and_iff_right trivial)
  rintro x1 - h
  refine (Gated.step (P := True) (Q := l % 8 = 0) h (fun _ e => Gated.same e) ?_).iff
    (and_iff_right trivial)
  rintro x2 - h
  refine (Gated.step (Q := True) h
    (fun _ e => operate_bitmaps_aligned (by decide) (memWordsA_cases m l) (words_cases _) e)
    (fun _ _ e => Gated.same e)).iff ?_
  simp

theorem union_blocks_aligned {dbg : Bool} {m : Mem} {l r base out : Nat}
    {a b : Blk} {x4 buf : List Nat} {o : Nat × List Nat × List Nat}
    (h : union_blocks dbg m l r a.vals.length b.vals.length base x4 buf out = .ok o) :
    Gated (BlkGate l r a b)
      (union_blocksA dbg m l r a.vals.length b.vals.length base x4 buf out) (.ok o) := by
  unfold union_blocks at h
  unfold union_blocksA BlkGate
  by_cases c1 : a.vals.length < 31 <;> by_cases c2 : b.vals.length < 31
  · simp only [block_type, c1, c2, if_true] at h ⊢
    exact Gated.of_true ⟨fun h => by omega, fun h => by omega⟩ h
  · simp [block_type, c1, c2, type_sparse, type_dense, block_pair] at h ⊢
    exact (ds_union_block_aligned h).iff
      ⟨fun h => ⟨fun h' => by omega, fun _ => h⟩, fun h => h.2 (by omega)⟩
  · simp [block_type, c1, c2, type_sparse, type_dense, block_pair] at h ⊢
    exact (ds_union_block_aligned h).iff
      ⟨fun h => ⟨fun _ => h, fun h' => by omega⟩, fun h => h.1 (by omega)⟩
  · simp [block_type, c1, c2, type_sparse, type_dense, block_pair] at h ⊢
    exact (Gated.map h (fun _ e => operate_bitmaps_aligned (by decide) (memWordsA_cases m l)
      (memWordsA_cases m r) e)).iff
      ⟨fun h => ⟨fun _ => h.1, fun _ => h.2⟩, fun h => ⟨h.1 (by omega), h.2 (by omega)⟩⟩

theorem decode_macro_aligned {m : Mem} {base p d out : Nat} {b : Blk} {bs : List Blk}
    {buf : List Nat} {o : Nat × List Nat × Nat × Nat} (hw : b.WF) (ha : BlocksAt 0 m p d (b :: bs))
    (h : decode_macro m base p d buf out = .ok o) :
    o.2.2 = (d + b.size, p + 2) ∧
    Gated (31 ≤ b.vals.length → d % 8 = 0) (decode_macroA m base p d buf out) (.ok o) := by
  obtain ⟨g1, g2, -, -⟩ := ha
  have hc := hw.card_pos
  unfold decode_macro at h
  unfold decode_macroA
  simp only [g1, g2, ok_bind, Nat.sub_add_cancel hc] at h ⊢
  constructor
  · obtain ⟨v, -, h⟩ := bind_ok h
    cases h
    rfl
  · refine (Gated.step (Q := True) h (fun v e => ?_) (fun _ _ e => Gated.same e)).iff
      (and_iff_left trivial)
    unfold decode_block at e
    unfold decode_blockA
    unfold block_type at e ⊢
    by_cases c : b.vals.length < 31
    · rw [if_pos c, if_pos rfl] at e ⊢
      exact Gated.of_true (fun h => by omega) e
    · rw [if_neg c, if_neg (by decide)] at e ⊢
      exact (decode_bitmap_aligned (by decide) e).iff ⟨fun h _ => h, fun h => h (by omega)⟩

theorem decode_rest_aligned {m : Mem} {end_ base : Nat} (f : Nat) {p d out : Nat} {bs : List Blk}
    {buf : List Nat} {o : Nat × List Nat} (hw : BlocksWF bs) (ha : BlocksAt 0 m p d bs)
    (he : p + 2 * bs.length = end_) (hf : bs.length < f)
    (h : decode_rest m end_ base f p d buf out = .ok o) :
    Gated (blocksAligned d bs) (decode_restA m end_ base f p d buf out) (.ok o) := by
  induction bs generalizing f p d out buf with
  | nil =>
    obtain ⟨f, rfl⟩ : ∃ g, f = g + 1 := ⟨f - 1, by simp at hf; omega⟩
    simp only [List.length_nil, Nat.mul_zero, Nat.add_zero] at he
    unfold decode_rest at h
    unfold decode_restA
    rw [if_neg (by omega)] at h ⊢
    exact Gated.of_true trivial h
  | cons b bs ih =>
    obtain ⟨f, rfl⟩ : ∃ g, f = g + 1 := ⟨f - 1, by simp at hf; omega⟩
    simp only [List.length_cons] at he hf
    unfold decode_rest at h
    unfold decode_restA
    rw [if_pos (by omega)] at h ⊢
    refine Gated.step h (fun _ e => (decode_macro_aligned hw.head ha e).2) ?_
    rintro ⟨o1, buf1, d1, p1⟩ e h
    have := (decode_macro_aligned hw.head ha e).1
    simp only [Prod.mk.injEq] at this
    obtain ⟨rfl, rfl⟩ := this
    exact ih f hw.tail ha.2.2.2 (by omega) (by omega) h

/-- the two loops behind the merge of the blocks -/
def ssRest (m : Mem) (end_l end_r base fl fr : Nat) (s : UState) : Res (Nat × List Nat × List Nat) := do
  let (o, buf) ← decode_rest m end_l base fl s.l s.data_l s.buf s.out
  let (o, buf) ← decode_rest m end_r base fr s.r s.data_r buf o
  return (o, s.x4, buf)

/-- as `ssRest` -/
def ssRestA (m : Mem) (end_l end_r base fl fr : Nat) (s : UState) : Res (Nat × List Nat × List Nat) := do
  let (o, buf) ← decode_restA m end_l base fl s.l s.data_l s.buf s.out
  let (o, buf) ← decode_restA m end_r base fr s.r s.data_r buf o
  return (o, s.x4, buf)

theorem ssRest_aligned {m : Mem} {end_l end_r base fl fr : Nat} {s : UState} {L R : List Blk}
    {o : Nat × List Nat × List Nat} (wL : BlocksWF L) (wR : BlocksWF R)
    (al : BlocksAt 0 m s.l s.data_l L) (ar : BlocksAt 0 m s.r s.data_r R)
    (el : s.l + 2 * L.length = end_l) (er : s.r + 2 * R.length = end_r)
    (h1 : L.length < fl) (h2 : R.length < fr) (h : ssRest m end_l end_r base fl fr s = .ok o) :
    Gated (blocksAligned s.data_l L ∧ blocksAligned s.data_r R)
      (ssRestA m end_l end_r base fl fr s) (.ok o) := by
  unfold ssRest at h
  unfold ssRestA
  refine Gated.step h (fun _ e => decode_rest_aligned fl wL al el h1 e) ?_
  rintro ⟨o1, buf1⟩ - h
  exact (Gated.step (Q := True) h (fun _ e => decode_rest_aligned fr wR ar er h2 e)
    (fun _ _ e => Gated.same e)).iff (and_iff_left trivial)

theorem ssFrom_aligned {dbg : Bool} {m : Mem} {end_l end_r base fl fr : Nat} (f : Nat)
    {s : UState} {L R : List Blk} {o : Nat × List Nat × List Nat}
    (hL : L ≠ []) (hR : R ≠ []) (wL : BlocksWF L) (wR : BlocksWF R)
    (al : BlocksAt 0 m s.l s.data_l L) (ar : BlocksAt 0 m s.r s.data_r R)
    (el : s.l + 2 * L.length = end_l) (er : s.r + 2 * R.length = end_r)
    (hf : L.length + R.length < f) (h1 : L.length < fl) (h2 : R.length < fr)
    (h : (ss_union_chunk_loop dbg m end_l end_r base f s >>= ssRest m end_l end_r base fl fr) = .ok o) :
    Gated (blocksAligned s.data_l L ∧ blocksAligned s.data_r R)
      (ss_union_chunk_loopA dbg m end_l end_r base f s >>= ssRestA m end_l end_r base fl fr)
      (.ok o) := by
  induction f generalizing s L R with
  | zero => omega
  | succ f ih =>
    obtain ⟨a, L, rfl⟩ := List.exists_cons_of_ne_nil hL
    obtain ⟨b, R, rfl⟩ := List.exists_cons_of_ne_nil hR
    obtain ⟨l, dl, r, dr, out, x4, buf⟩ := s
    simp only at al ar el er
    simp only [List.length_cons] at el er hf h1 h2
    have hA := al.2.2.2
    have hB := ar.2.2.2
    simp only [ss_union_chunk_loop, al.1, ar.1, ok_bind] at h
    simp only [ss_union_chunk_loopA, al.1, ar.1, ok_bind]
    by_cases h1' : a.id < b.id
    · rw [if_pos h1', bind_assoc] at h ⊢
      refine Gated.iff (Gated.step (Q := blocksAligned (dl + a.size) L ∧ blocksAligned dr (b :: R)) h
        (fun _ e => (decode_macro_aligned wL.head al e).2) ?_)
        ⟨fun t => ⟨⟨t.1, t.2.1⟩, t.2.2⟩, fun t => ⟨t.1.1, t.1.2, t.2⟩⟩
      rintro ⟨o1, buf1, d1, p1⟩ e h
      have := (decode_macro_aligned wL.head al e).1
      simp only [Prod.mk.injEq] at this
      obtain ⟨rfl, rfl⟩ := this
      simp only at h ⊢
      by_cases hend : l + 2 = end_l
      · simp only [if_pos hend] at h ⊢
        exact ssRest_aligned (s := ⟨l + 2, dl + a.size, r, dr, o1, x4, buf1⟩) wL.tail wR hA ar
          (by simp only; omega) (by simp only [List.length_cons]; omega) (by omega)
          (by simp only [List.length_cons]; omega) h
      · simp only [if_neg hend] at h ⊢
        exact ih (s := ⟨l + 2, dl + a.size, r, dr, o1, x4, buf1⟩)
          (by rintro rfl; simp only [List.length_nil] at el; omega) (by simp) wL.tail wR hA ar
          (by simp only; omega) (by simp only [List.length_cons]; omega)
          (by simp only [List.length_cons]; omega) (by omega) (by simp only [List.length_cons]; omega) h
    · rw [if_neg h1'] at h ⊢
      by_cases h2' : a.id > b.id
      · rw [if_pos h2', bind_assoc] at h ⊢
        refine Gated.iff (Gated.step (Q := blocksAligned dl (a :: L) ∧ blocksAligned (dr + b.size) R) h
          (fun _ e => (decode_macro_aligned wR.head ar e).2) ?_)
          ⟨fun t => ⟨t.2.1, t.1, t.2.2⟩, fun t => ⟨t.2.1, t.1, t.2.2⟩⟩
        rintro ⟨o1, buf1, d1, p1⟩ e h
        have := (decode_macro_aligned wR.head ar e).1
        simp only [Prod.mk.injEq] at this
        obtain ⟨rfl, rfl⟩ := this
        simp only at h ⊢
        by_cases hend : r + 2 = end_r
        · simp only [if_pos hend] at h ⊢
          exact ssRest_aligned (s := ⟨l, dl, r + 2, dr + b.size, o1, x4, buf1⟩) wL wR.tail al hB
            (by simp only [List.length_cons]; omega) (by simp only; omega)
            (by simp only [List.length_cons]; omega) (by omega) h
        · simp only [if_neg hend] at h ⊢
          exact ih (s := ⟨l, dl, r + 2, dr + b.size, o1, x4, buf1⟩)
            (by simp) (by rintro rfl; simp only [List.length_nil] at er; omega) wL wR.tail al hB
            (by simp only [List.length_cons]; omega) (by simp only; omega)
            (by simp only [List.length_cons]; omega) (by simp only [List.length_cons]; omega)
            (by omega) h
      · rw [if_neg h2'] at h ⊢
        have ca := wL.head.card_pos
        have cb := wR.head.card_pos
        simp only [al.2.1, ar.2.1, ok_bind, Nat.sub_add_cancel ca, Nat.sub_add_cancel cb] at h ⊢
        rw [bind_assoc] at h ⊢
        refine Gated.iff (Gated.step
          (Q := blocksAligned (dl + a.size) L ∧ blocksAligned (dr + b.size) R) h
          (fun _ e => union_blocks_aligned e) ?_)
          ⟨fun t => ⟨⟨t.1.1, t.2.1⟩, t.1.2, t.2.2⟩, fun t => ⟨⟨t.1.1, t.2.1⟩, t.1.2, t.2.2⟩⟩
        rintro ⟨n, x4', buf1⟩ - h
        simp only at h ⊢
        by_cases hend : l + 2 = end_l ∨ r + 2 = end_r
        · simp only [if_pos hend] at h ⊢
          exact ssRest_aligned (s := ⟨l + 2, dl + a.size, r + 2, dr + b.size, out + n, x4', buf1⟩)
            wL.tail wR.tail hA hB (by simp only; omega) (by simp only; omega) (by omega) (by omega) h
        · simp only [if_neg hend] at h ⊢
          exact ih (s := ⟨l + 2, dl + a.size, r + 2, dr + b.size, out + n, x4', buf1⟩)
            (by rintro rfl; simp only [List.length_nil] at el; omega)
            (by rintro rfl; simp only [List.length_nil] at er; omega) wL.tail wR.tail hA hB
            (by simp only; omega) (by simp only; omega) (by omega) (by omega) (by omega) h

theorem ss_union_chunk_aligned {dbg : Bool} {m : Mem} {base l r out : Nat}
    {L R : List Blk} {x4 buf : List Nat} {o : Nat × List Nat × List Nat}
    (hL : L ≠ []) (hR : R ≠ []) (wL : BlocksWF L) (wR : BlocksWF R)
    (al : BlocksAt 0 m l (l + 2 * L.length) L) (ar : BlocksAt 0 m r (r + 2 * R.length) R)
    (h : ss_union_chunk dbg m l r L.length R.length base x4 buf out = .ok o) :
    Gated (blocksAligned (l + 2 * L.length) L ∧ blocksAligned (r + 2 * R.length) R)
      (ss_union_chunkA dbg m l r L.length R.length base x4 buf out) (.ok o) := by
  have h1 := List.length_pos_iff.mpr hL
  have h2 := wL.length_le
  have h3 := List.length_pos_iff.mpr hR
  have h4 := wR.length_le
  have he : ss_union_chunk dbg m l r L.length R.length base x4 buf out = (do
      let v ← (ss_union_chunk_loop dbg m (l + 2 * L.length) (r + 2 * R.length) base
          (L.length + R.length + 1) ⟨l, l + 2 * L.length, r, r + 2 * R.length, out, x4, buf⟩ >>=
        ssRest m (l + 2 * L.length) (r + 2 * R.length) base (L.length + 1) (R.length + 1))
      pure (v.1 - out, v.2)) := by
    unfold ss_union_chunk ssRest
    rw [cassert_of (by simp; omega), cassert_of (by simp; omega)]
    simp only [ok_bind, show L.length * 2 = 2 * L.length by omega,
      show R.length * 2 = 2 * R.length by omega, bind_assoc, pure_bind]
  have heA : ss_union_chunkA dbg m l r L.length R.length base x4 buf out = (do
      let v ← (ss_union_chunk_loopA dbg m (l + 2 * L.length) (r + 2 * R.length) base
          (L.length + R.length + 1) ⟨l, l + 2 * L.length, r, r + 2 * R.length, out, x4, buf⟩ >>=
        ssRestA m (l + 2 * L.length) (r + 2 * R.length) base (L.length + 1) (R.length + 1))
      pure (v.1 - out, v.2)) := by
    unfold ss_union_chunkA ssRestA
    rw [cassert_of (by simp; omega), cassert_of (by simp; omega)]
    simp only [ok_bind, show L.length * 2 = 2 * L.length by omega,
      show R.length * 2 = 2 * R.length by omega, bind_assoc, pure_bind]
  rw [he] at h
  rw [heA]
  exact (Gated.step (Q := True) h (fun _ e => ssFrom_aligned _
    (s := ⟨l, l + 2 * L.length, r, r + 2 * R.length, out, x4, buf⟩) hL hR wL wR al ar rfl rfl
    (by omega) (by omega) (by omega) e) (fun _ _ e => Gated.same e)).iff (and_iff_left trivial)

/-! ## Chunks -/

theorem ds_union_chunk_aligned {dbg : Bool} {m : Mem} {l r blocks base out : Nat}
    {x buf : List Nat} {o : Nat × List Nat × List Nat}
    (h : ds_union_chunk dbg m l r blocks base x buf out = .ok o) :
    Gated (l % 8 = 0) (ds_union_chunkA dbg m l r blocks base x buf out) (.ok o) := by
  unfold ds_union_chunk at h
  unfold ds_union_chunkA
  dsimp only at h ⊢
  refine (Gated.step (P := True) (Q := l % 8 = 0) h (fun _ e => Gated.same e) ?_).iff
    (and_iff_right trivial)
  rintro x1 - h
  refine (Gated.step (Q := True) h
    (fun _ e => operate_bitmaps_aligned (by decide) (memWordsA_cases m l) (words_cases _) e)
    (fun _ _ e => Gated.same e)).iff ?_
  simp

/-- all the bitmaps that are read for the union of two chunks of the same slice are at multiples of 8;
the blocks of a chunk are copied if the other chunk is a bitmap, and nothing is read beside a full chunk -/
def UGate (dl dr : Nat) : Body → Body → Prop
  | .full, _ => True
  | .dense _, .full => True
  | .dense _, .dense _ => dl % 8 = 0 ∧ dr % 8 = 0
  | .dense _, .sparse _ => dl % 8 = 0
  | .sparse _, .full => True
  | .sparse _, .dense _ => dr % 8 = 0
  | .sparse as, .sparse bs =>
    blocksAligned (dl + 2 * as.length) as ∧ blocksAligned (dr + 2 * bs.length) bs

theorem union_chunks_aligned {dbg : Bool} {m : Mem} {il ir : It} {a b : Chk} {L R : List Chk}
    {base out : Nat} {s : UScratch} {buf : List Nat} {o : Nat × UScratch × List Nat}
    (hhl : il.header % 2 = 0) (hhr : ir.header % 2 = 0) (hl : ItOn 0 m il (a :: L))
    (hr : ItOn 0 m ir (b :: R)) (h : union_chunks dbg m il ir base s buf out = .ok o) :
    Gated (UGate il.data ir.data a.body b.body)
      (union_chunksA dbg m il ir base s buf out) (.ok o) := by
  have wa := hl.wf.head.2
  have wb := hr.wf.head.2
  have ha : BodyAt _ _ _ _ := hl.at_.2.1
  have hb : BodyAt _ _ _ _ := hr.at_.2.1
  unfold union_chunks at h
  unfold union_chunksA
  rw [It.typeA_eq hhl, It.typeA_eq hhr, It.blocksA_eq hhl, It.blocksA_eq hhr]
  cases ea : a.body with
  | full =>
    rw [hl.type_full ea] at h ⊢
    cases eb : b.body with
    | full =>
      rw [hr.type_full eb] at h ⊢
      exact Gated.of_true trivial (by
        simpa [type_sparse, type_dense, chunk_pair, type_full] using h)
    | dense vs =>
      rw [hr.type_dense eb] at h ⊢
      exact Gated.of_true trivial (by
        simpa [type_sparse, type_dense, chunk_pair, type_full] using h)
    | sparse bs =>
      rw [hr.type_sparse eb] at h ⊢
      exact Gated.of_true trivial (by
        simpa [type_sparse, type_dense, chunk_pair, type_full] using h)
  | dense us =>
    rw [hl.type_dense ea] at h ⊢
    cases eb : b.body with
    | full =>
      rw [hr.type_full eb] at h ⊢
      exact Gated.of_true trivial (by
        simpa [type_sparse, type_dense, chunk_pair, type_full] using h)
    | dense vs =>
      rw [hr.type_dense eb] at h ⊢
      simp [type_sparse, type_dense, chunk_pair, type_full] at h ⊢
      exact Gated.map h (fun _ e => operate_bitmaps_aligned (by decide) (memWordsA_cases m _)
        (memWordsA_cases m _) e)
    | sparse bs =>
      rw [hr.type_sparse eb, hr.blocks_sparse eb] at h ⊢
      simp [type_sparse, type_dense, chunk_pair, type_full] at h ⊢
      exact Gated.map h (fun _ e => ds_union_chunk_aligned e)
  | sparse as =>
    rw [hl.type_sparse ea, hl.blocks_sparse ea] at h ⊢
    rw [ea] at wa ha
    cases eb : b.body with
    | full =>
      rw [hr.type_full eb] at h ⊢
      exact Gated.of_true trivial (by
        simpa [type_sparse, type_dense, chunk_pair, type_full] using h)
    | dense vs =>
      rw [hr.type_dense eb] at h ⊢
      simp [type_sparse, type_dense, chunk_pair, type_full] at h ⊢
      exact Gated.map h (fun _ e => ds_union_chunk_aligned e)
    | sparse bs =>
      rw [hr.type_sparse eb, hr.blocks_sparse eb] at h ⊢
      rw [eb] at wb hb
      simp [type_sparse, chunk_pair] at h ⊢
      by_cases hlt : as.length < bs.length
      · simp only [hlt, if_true] at h ⊢
        exact Gated.map h (fun _ e => ss_union_chunk_aligned wa.1 wb.1 wa.2 wb.2 ha hb e)
      · simp only [hlt, if_false] at h ⊢
        exact Gated.iff (Gated.map h (fun _ e =>
          ss_union_chunk_aligned wb.1 wa.1 wb.2 wa.2 hb ha e)) and_comm

theorem decode_tail_aligned {dbg : Bool} {m : Mem} {P : Nat → Nat} (f : Nat) {it : It}
    {cs : List Chk} {out : Nat} {buf : List Nat} {o : Nat × List Nat} (hh : it.header % 2 = 0)
    (hi : ItOnP (ChkPut m P) m it cs) (hf : cs.length < f)
    (h : decode_tail dbg m f it buf out = .ok o) :
    Gated (∀ c ∈ cs, bodyAligned (P c.id) c.body) (decode_tailA dbg m f it buf out) (.ok o) := by
  induction cs generalizing f it out buf with
  | nil =>
    obtain ⟨f, rfl⟩ : ∃ g, f = g + 1 := ⟨f - 1, by simp at hf; omega⟩
    refine Gated.of_true (fun _ h => nomatch h) ?_
    rw [← h]
    simp [decode_tail, decode_tailA, hi.has_next_nil]
  | cons c cs ih =>
    obtain ⟨f, rfl⟩ : ∃ g, f = g + 1 := ⟨f - 1, by simp at hf; omega⟩
    simp only [List.length_cons] at hf
    unfold decode_tail at h
    unfold decode_tailA
    rw [if_pos hi.has_next] at h ⊢
    rw [It.nextA_eq hh]
    obtain ⟨it', n, hit, -⟩ := hi.next
    refine Gated.iff (Gated.step (P := bodyAligned (P c.id) c.body)
      (Q := ∀ c ∈ cs, bodyAligned (P c.id) c.body) h
      (fun _ e => by rw [← hi.at_.2.1.2]; exact decode_chunk_aligned hh hi.body e) ?_) ?_
    · rintro ⟨k, buf1⟩ - h
      simp only [n, ok_bind] at h ⊢
      exact ih f (It.next_even hh n) hit (by omega) h
    · constructor
      · rintro ⟨t1, t2⟩ x hx
        rcases List.mem_cons.mp hx with rfl | hx
        · exact t1
        · exact t2 x hx
      · exact fun t => ⟨t c List.mem_cons_self, fun x hx => t x (List.mem_cons_of_mem _ hx)⟩

/-- the bitmaps that are read of the chunks of two lists are at multiples of 8 -/
def UGates (P Q : Nat → Nat) (L R : List Chk) : Prop :=
  Merged Chk.id (fun a => bodyAligned (P a.id) a.body) (fun b => bodyAligned (Q b.id) b.body)
    (fun a b => UGate (P a.id) (Q b.id) a.body b.body) L R

/-- the two loops behind the merge of the chunks -/
def puRest (dbg : Bool) (m : Mem) (fl fr : Nat) (v : It × It × Nat × UScratch × List Nat) :
    Res (Nat × UScratch × List Nat) := do
  let (o, buf) ← decode_tail dbg m fl v.1 v.2.2.2.2 v.2.2.1
  let (o, buf) ← decode_tail dbg m fr v.2.1 buf o
  return (o, v.2.2.2.1, buf)

/-- as `puRest` -/
def puRestA (dbg : Bool) (m : Mem) (fl fr : Nat) (v : It × It × Nat × UScratch × List Nat) :
    Res (Nat × UScratch × List Nat) := do
  let (o, buf) ← decode_tailA dbg m fl v.1 v.2.2.2.2 v.2.2.1
  let (o, buf) ← decode_tailA dbg m fr v.2.1 buf o
  return (o, v.2.2.2.1, buf)

theorem puRest_aligned {dbg : Bool} {m : Mem} {fl fr : Nat} {P Q : Nat → Nat} {il ir : It}
    {L R : List Chk} {out : Nat} {s : UScratch} {buf : List Nat} {o : Nat × UScratch × List Nat}
    (emp : L = [] ∨ R = []) (hhl : il.header % 2 = 0) (hhr : ir.header % 2 = 0)
    (hl : ItOnP (ChkPut m P) m il L) (hr : ItOnP (ChkPut m Q) m ir R)
    (h1 : L.length < fl) (h2 : R.length < fr)
    (h : puRest dbg m fl fr (il, ir, out, s, buf) = .ok o) :
    Gated (UGates P Q L R) (puRestA dbg m fl fr (il, ir, out, s, buf)) (.ok o) := by
  unfold puRest at h
  unfold puRestA
  refine Gated.iff (Gated.step (P := ∀ c ∈ L, bodyAligned (P c.id) c.body)
    (Q := (∀ c ∈ R, bodyAligned (Q c.id) c.body) ∧ True) h
    (fun _ e => decode_tail_aligned fl hhl hl h1 e) ?_) ?_
  · rintro ⟨o1, buf1⟩ - h
    exact Gated.step h (fun _ e => decode_tail_aligned fr hhr hr h2 e) (fun _ _ e => Gated.same e)
  · rcases emp with h | h
    · subst h
      rw [UGates, merged_nil_left]
      exact ⟨fun t => t.2.1, fun t => ⟨fun _ h => (nomatch h), t, trivial⟩⟩
    · subst h
      rw [UGates, merged_nil_right]
      exact ⟨fun t => t.1, fun t => ⟨t, fun _ h => (nomatch h), trivial⟩⟩

theorem puFrom_aligned {dbg : Bool} {m : Mem} {fl fr : Nat} {P Q : Nat → Nat} (f : Nat)
    {il ir : It} {L R : List Chk} {out : Nat} {s : UScratch} {buf : List Nat}
    {o : Nat × UScratch × List Nat} (hL : L ≠ []) (hR : R ≠ [])
    (hhl : il.header % 2 = 0) (hhr : ir.header % 2 = 0)
    (hl : ItOnP (ChkPut m P) m il L) (hr : ItOnP (ChkPut m Q) m ir R)
    (hf : L.length + R.length < f) (h1 : L.length < fl) (h2 : R.length < fr)
    (h : (pairwise_union_loop dbg m f il ir s buf out >>= puRest dbg m fl fr) = .ok o) :
    Gated (UGates P Q L R)
      (pairwise_union_loopA dbg m f il ir s buf out >>= puRestA dbg m fl fr) (.ok o) := by
  induction f generalizing il ir L R out s buf with
  | zero => omega
  | succ f ih =>
    obtain ⟨a, L, rfl⟩ := List.exists_cons_of_ne_nil hL
    obtain ⟨b, R, rfl⟩ := List.exists_cons_of_ne_nil hR
    simp only [List.length_cons] at hf h1 h2
    have wL := hl.wf
    have wR := hr.wf
    have ia := wL.head.1
    have ib := wR.head.1
    obtain ⟨il1, nl, hl1, -⟩ := hl.next
    obtain ⟨ir1, nr, hr1, -⟩ := hr.next
    have hl1e := It.next_even hhl nl
    have hr1e := It.next_even hhr nr
    simp only [pairwise_union_loop, hl.id, hr.id, ok_bind, u16_lt (show a.id < 65536 by omega),
      u16_lt (show b.id < 65536 by omega)] at h
    simp only [pairwise_union_loopA, It.idA_eq hhl, It.idA_eq hhr, It.nextA_eq hhl, It.nextA_eq hhr,
      hl.id, hr.id, ok_bind, u16_lt (show a.id < 65536 by omega),
      u16_lt (show b.id < 65536 by omega)]
    -- what follows a step, with the lists that are left
    have go : ∀ {jl jr : It} {L' R' : List Chk} {o1 : Nat} {s1 : UScratch} {buf1 : List Nat},
        jl.header % 2 = 0 → jr.header % 2 = 0 →
        ItOnP (ChkPut m P) m jl L' → ItOnP (ChkPut m Q) m jr R' →
        L'.length + R'.length < L.length + R.length + 2 → L'.length < fl → R'.length < fr →
        ((if (!jl.has_next || !jr.has_next) = true then pure (jl, jr, o1, s1, buf1)
            else pairwise_union_loop dbg m f jl jr s1 buf1 o1) >>= puRest dbg m fl fr) = .ok o →
        Gated (UGates P Q L' R')
          ((if (!jl.has_next || !jr.has_next) = true then pure (jl, jr, o1, s1, buf1)
            else pairwise_union_loopA dbg m f jl jr s1 buf1 o1) >>= puRestA dbg m fl fr) (.ok o) := by
      intro jl jr L' R' o1 s1 buf1 gl' gr' gl gr glen gf1 gf2 h
      by_cases hend : (!jl.has_next || !jr.has_next) = true
      · rw [if_pos hend, pure_bind] at h ⊢
        refine puRest_aligned ?_ gl' gr' gl gr gf1 gf2 h
        rw [Bool.or_eq_true] at hend
        refine hend.imp ?_ ?_
        · intro h
          cases L' with
          | nil => rfl
          | cons c L' => rw [gl.has_next] at h; simp at h
        · intro h
          cases R' with
          | nil => rfl
          | cons c R' => rw [gr.has_next] at h; simp at h
      · rw [if_neg hend] at h ⊢
        have hLne : L' ≠ [] := by
          rintro rfl; simp [gl.has_next_nil] at hend
        have hRne : R' ≠ [] := by
          rintro rfl; simp [gr.has_next_nil] at hend
        exact ih hLne hRne gl' gr' gl gr (by omega) gf1 gf2 h
    by_cases hab : a.id = b.id
    · rw [if_pos hab, bind_assoc] at h ⊢
      rw [UGates, ← merged_both hab wL.head_lt wR.head_lt, ← hl.at_.2.1.2, ← hr.at_.2.1.2]
      refine Gated.step h (fun _ e => union_chunks_aligned hhl hhr hl.body hr.body e) ?_
      rintro ⟨n, s1, buf1⟩ - h
      simp only [nl, nr, ok_bind] at h ⊢
      exact go hl1e hr1e hl1 hr1 (by omega) (by omega) (by omega) h
    · rw [if_neg hab] at h ⊢
      by_cases hlt : a.id < b.id
      · rw [if_pos hlt, bind_assoc] at h ⊢
        rw [UGates, ← merged_left (fun c hc => Nat.lt_of_lt_of_le hlt (wR.ge_head c hc)),
          ← hl.at_.2.1.2]
        refine Gated.step h (fun _ e => decode_chunk_aligned hhl hl.body e) ?_
        rintro ⟨n, buf1⟩ - h
        simp only [nl, ok_bind] at h ⊢
        have := go (jl := il1) (jr := ir) (L' := L) (R' := b :: R) (o1 := out + n) (s1 := s)
          (buf1 := buf1) hl1e hhr hl1 hr (by simp only [List.length_cons]; omega) (by omega)
          (by simp only [List.length_cons]; omega)
        simp only [hr.has_next, Bool.not_true, Bool.or_false] at this
        exact this h
      · rw [if_neg hlt, bind_assoc] at h ⊢
        have hgt : b.id < a.id := by omega
        rw [UGates, ← merged_right (fun c hc => Nat.lt_of_lt_of_le hgt (wL.ge_head c hc)),
          ← hr.at_.2.1.2]
        refine Gated.step h (fun _ e => decode_chunk_aligned hhr hr.body e) ?_
        rintro ⟨n, buf1⟩ - h
        simp only [nr, ok_bind] at h ⊢
        have := go (jl := il) (jr := ir1) (L' := a :: L) (R' := R) (o1 := out + n) (s1 := s)
          (buf1 := buf1) hhl hr1e hl hr1 (by simp only [List.length_cons]; omega)
          (by simp only [List.length_cons]; omega) (by omega)
        simp only [hl.has_next, Bool.not_true, Bool.false_or] at this
        exact this h

theorem pairwise_union_aligned {dbg : Bool} {m : Mem} {P Q : Nat → Nat} {l r : SSeq}
    {L R : List Chk} {out : Nat} {s : UScratch} {buf : List Nat} {o : Nat × UScratch × List Nat}
    (hhl : l.header % 2 = 0) (hhr : r.header % 2 = 0)
    (hl : SeqAtP (ChkPut m P) m l L) (hr : SeqAtP (ChkPut m Q) m r R)
    (h : pairwise_union dbg m l r s buf out = .ok o) :
    Gated (UGates P Q L R) (pairwise_unionA dbg m l r s buf out) (.ok o) := by
  have he : pairwise_union dbg m l r s buf out = (do
      let v ← (pairwise_union_loop dbg m (l.chunks + r.chunks + 1) l.begin r.begin s buf out >>=
        puRest dbg m (l.chunks + 1) (r.chunks + 1))
      pure (v.1 - out, v.2)) := by
    unfold pairwise_union puRest
    simp only [bind_assoc, pure_bind]
  have heA : pairwise_unionA dbg m l r s buf out = (do
      let v ← (pairwise_union_loopA dbg m (l.chunks + r.chunks + 1) l.begin r.begin s buf out >>=
        puRestA dbg m (l.chunks + 1) (r.chunks + 1))
      pure (v.1 - out, v.2)) := by
    unfold pairwise_unionA puRestA
    simp only [bind_assoc, pure_bind]
  rw [he] at h
  rw [heA]
  exact (Gated.step (Q := True) h (fun _ e => puFrom_aligned _ (il := l.begin) (ir := r.begin)
    hl.ne hr.ne hhl hhr hl.begin hr.begin (by rw [hl.chunks, hr.chunks]; omega)
    (by rw [hl.chunks]; omega) (by rw [hr.chunks]; omega) e) (fun _ _ e => Gated.same e)).iff
    (and_iff_left trivial)

end Sliced
