import Verif.Model.AlignedSets
import Verif.Proof.AlignedQueries
import Verif.Proof.TailIntersect
/-! # pairwise_intersection with checked alignment: the same result, or undefined -/
namespace Sliced

section
variable {α β : Type} {P Q : Prop}

theorem Gated.step {x xA : Res α} {f fA : α → Res β} {r : β} (h : (x >>= f) = .ok r)
    (g : ∀ v, x = .ok v → Gated P xA (.ok v))
    (k : ∀ v, x = .ok v → f v = .ok r → Gated Q (fA v) (.ok r)) :
    Gated (P ∧ Q) (xA >>= fA) (.ok r) := by
  obtain ⟨v, e, hv⟩ := bind_ok h
  exact Gated.both (g := fun _ => .ok r) (g v e) (k v e hv)

theorem Gated.map {x xA : Res α} {f : α → β} {r : β} (h : f <$> x = .ok r)
    (g : ∀ v, x = .ok v → Gated P xA (.ok v)) : Gated P (f <$> xA) (.ok r) := by
  cases x with
  | error e => cases h
  | ok v =>
    refine ⟨fun hp => ?_, fun hp => ?_⟩
    · rw [(g v rfl).1 hp]; exact h
    · rw [(g v rfl).2 hp]; rfl

theorem Gated.pass {x : Res α} {v : α} (h : x = .ok v) : Gated True x (.ok v) := Gated.same h

end

/-! ## The leaves -/

theorem operate_loop_aligned {op : Nat → Nat → Nat} {l r lA rA : Words} {P Q : Prop} {n i base p : Nat}
    {out : List Nat} {v : Nat × List Nat} (hn : 1 ≤ n)
    (hl : (P → lA = l) ∧ (¬ P → lA = fun _ => .error .ub))
    (hr : (Q → rA = r) ∧ (¬ Q → rA = fun _ => .error .ub))
    (h : operate_loop op l r n i base out p = .ok v) :
    Gated (P ∧ Q) (operate_loop op lA rA n i base out p) (.ok v) := by
  obtain ⟨n, rfl⟩ : ∃ k, n = k + 1 := ⟨n - 1, by omega⟩
  refine ⟨fun hp => by rw [hl.1 hp.1, hr.1 hp.2]; exact h, fun hp => ?_⟩
  unfold operate_loop at h ⊢
  by_cases p1 : P
  · obtain ⟨x, e1, -⟩ := bind_ok h
    rw [hl.1 p1, e1, ok_bind, hr.2 (fun q => hp ⟨p1, q⟩)]; rfl
  · rw [hl.2 p1]; rfl

theorem operate_bitmaps_aligned {op : Nat → Nat → Nat} {l r lA rA : Words} {P Q : Prop}
    {n base p : Nat} {out : List Nat} {v : Nat × List Nat} (hn : 1 ≤ n)
    (hl : (P → lA = l) ∧ (¬ P → lA = fun _ => .error .ub))
    (hr : (Q → rA = r) ∧ (¬ Q → rA = fun _ => .error .ub))
    (h : operate_bitmaps op l r n base out p = .ok v) :
    Gated (P ∧ Q) (operate_bitmaps op lA rA n base out p) (.ok v) :=
  (Gated.step (Q := True) h (fun _ e => operate_loop_aligned hn hl hr e)
    (fun _ _ e => Gated.same e)).iff (and_iff_left trivial)

/-- a bitmap of the encoding -/
theorem memWordsA_cases (m : Mem) (p : Nat) :
    (p % 8 = 0 → memWordsA m p = memWords m p) ∧ (¬ p % 8 = 0 → memWordsA m p = fun _ => .error .ub) :=
  ⟨memWordsA_aligned, memWordsA_misaligned⟩

/-- a static vector -/
theorem words_cases (w : Words) : (True → w = w) ∧ (¬ True → w = fun _ => .error .ub) :=
  ⟨fun _ => rfl, fun h => absurd trivial h⟩

theorem decode_bitmap_aligned {m : Mem} {dp n base p : Nat} {out : List Nat} {v : Nat × List Nat}
    (hn : 1 ≤ n) (h : decode_bitmap (memWords m dp) n base out p = .ok v) :
    Gated (dp % 8 = 0) (decode_bitmap (memWordsA m dp) n base out p) (.ok v) :=
  ⟨fun hp => by rw [memWordsA_aligned hp]; exact h, fun hp => decode_bitmap_misaligned hp hn⟩

theorem ds_intersect_block_loop_aligned {m : Mem} {l r base out : Nat} (hl : l % 8 = 0) (n : Nat)
    {i k : Nat} {buf : List Nat} : ds_intersect_block_loopA m l r base out n i k buf
      = ds_intersect_block_loop m l r base out n i k buf := by
  induction n generalizing i k buf with
  | zero => rfl
  | succ n ih =>
    unfold ds_intersect_block_loopA ds_intersect_block_loop
    simp only [memWordsA_aligned hl, ih]

theorem ds_intersect_block_aligned {m : Mem} {l r card base out : Nat} {buf : List Nat}
    {v : Nat × List Nat} (hc : 1 ≤ card) (h : ds_intersect_block m l r card base buf out = .ok v) :
    Gated (l % 8 = 0) (ds_intersect_blockA m l r card base buf out) (.ok v) := by
  refine ⟨fun hp => ?_, fun hp => ?_⟩
  · unfold ds_intersect_blockA
    rw [ds_intersect_block_loop_aligned hp]; exact h
  · obtain ⟨n, rfl⟩ : ∃ k, card = k + 1 := ⟨card - 1, by omega⟩
    unfold ds_intersect_block ds_intersect_block_loop at h
    unfold ds_intersect_blockA ds_intersect_block_loopA
    obtain ⟨key, e1, h⟩ := bind_ok h
    obtain ⟨o, e2, h⟩ := bind_ok h
    rw [e1, ok_bind, e2, ok_bind, memWordsA_misaligned hp]; rfl

/-! ## Blocks -/

/-- the bitmaps among two blocks with the same id are at multiples of 8 -/
def BlkGate (dl dr : Nat) (a b : Blk) : Prop :=
  (31 ≤ a.vals.length → dl % 8 = 0) ∧ (31 ≤ b.vals.length → dr % 8 = 0)

theorem blkGate_swap {dl dr : Nat} {a b : Blk} : BlkGate dl dr a b ↔ BlkGate dr dl b a :=
  ⟨fun h => ⟨h.2, h.1⟩, fun h => ⟨h.2, h.1⟩⟩

theorem intersect_blocks_aligned {dbg : Bool} {tab : Nat → List Nat} {m : Mem} {l r base out : Nat}
    {a b : Blk} {buf : List Nat} {v : Nat × List Nat} (wa : a.WF) (wb : b.WF)
    (h : intersect_blocks dbg tab m l r a.vals.length b.vals.length base buf out = .ok v) :
    Gated (BlkGate l r a b)
      (intersect_blocksA dbg tab m l r a.vals.length b.vals.length base buf out) (.ok v) := by
  have ca := wa.card_pos
  have cb := wb.card_pos
  unfold intersect_blocks at h
  unfold intersect_blocksA BlkGate
  by_cases c1 : a.vals.length < 31 <;> by_cases c2 : b.vals.length < 31
  · simp only [block_type, c1, c2, if_true] at h ⊢
    exact Gated.of_true ⟨fun h => by omega, fun h => by omega⟩ h
  · simp [block_type, c1, c2, type_sparse, type_dense, block_pair] at h ⊢
    exact (ds_intersect_block_aligned ca h).iff
      ⟨fun h => ⟨fun h' => by omega, fun _ => h⟩, fun h => h.2 (by omega)⟩
  · simp [block_type, c1, c2, type_sparse, type_dense, block_pair] at h ⊢
    exact (ds_intersect_block_aligned cb h).iff
      ⟨fun h => ⟨fun _ => h, fun h' => by omega⟩, fun h => h.1 (by omega)⟩
  · simp [block_type, c1, c2, type_sparse, type_dense, block_pair] at h ⊢
    exact (operate_bitmaps_aligned (by decide) (memWordsA_cases m l) (memWordsA_cases m r) h).iff
      ⟨fun h => ⟨fun _ => h.1, fun _ => h.2⟩, fun h => ⟨h.1 (by omega), h.2 (by omega)⟩⟩

theorem ss_intersect_chunk_loop_aligned {dbg : Bool} {tab : Nat → List Nat} {m : Mem}
    {end_l end_r base : Nat} {P Q : Nat → Nat} (f : Nat) {l dl r dr tmp : Nat} {L R : List Blk}
    {buf : List Nat} {o : Nat × List Nat}
    (hL : L ≠ []) (hR : R ≠ []) (wL : BlocksWF L) (wR : BlocksWF R) (al : BlocksAt 0 m l dl L)
    (ar : BlocksAt 0 m r dr R) (pl : BlksPlaced P dl L) (pr : BlksPlaced Q dr R)
    (el : l + 2 * L.length = end_l) (er : r + 2 * R.length = end_r) (hf : L.length + R.length < f)
    (h : ss_intersect_chunk_loop dbg tab m end_l end_r base f l dl r dr buf tmp = .ok o) :
    Gated (Pairs Blk.id (fun a b => BlkGate (P a.id) (Q b.id) a b) L R)
      (ss_intersect_chunk_loopA dbg tab m end_l end_r base f l dl r dr buf tmp) (.ok o) := by
  induction f generalizing l dl r dr tmp L R buf with
  | zero => omega
  | succ f ih =>
    obtain ⟨k, R, rfl⟩ := List.exists_cons_of_ne_nil hR
    have hRk := wR.ge_head
    obtain ⟨o1, e1, s1⟩ := skip_lower_blocks_spec (m := m) (q := r) ar.1 (end_l - l + 1) hL wL al el
      (by omega)
    simp only [ss_intersect_chunk_loop, e1, ok_bind] at h
    simp only [ss_intersect_chunk_loopA, e1, ok_bind]
    match o1, s1, h with
    | none, s1, h =>
      exact Gated.of_true (pairs_none (fun a ha b hb => by
        have := s1 a ha; have := hRk b hb; omega)) h
    | some (l', dl'), ⟨pre, v, V, hLV, hpre, hkv, hl', al', hdl⟩, h =>
      subst hLV
      have wL' := wL.append_right
      have hVv := wL'.ge_head
      have pl' := pl.append
      rw [← hdl] at pl'
      refine Gated.iff ?_ (pairs_drop_left (P := pre) (fun a ha b hb => by
        have := hpre a ha; have := hRk b hb; omega))
      simp only [List.length_append, List.length_cons] at el hf er
      obtain ⟨o2, e2, s2⟩ := skip_lower_blocks_spec (m := m) (q := l') (p := r) (d := dr) al'.1
        (end_r - r + 1) (bs := k :: R) (end_p := end_r) (by simp) wR ar (by simp; omega)
        (by simp; omega)
      simp only [e2, ok_bind] at h ⊢
      match o2, s2, h with
      | none, s2, h =>
        exact Gated.of_true (pairs_none (fun a ha b hb => by
          have := s2 b hb; have := hVv a ha; omega)) h
      | some (r', dr'), ⟨pre2, w, W, hRW, hpre2, hvw, hr', ar', hdr⟩, h =>
        have hlenR : R.length + 1 = pre2.length + (W.length + 1) := by
          have := congrArg List.length hRW
          simpa using this
        rw [hRW] at ar wR pr ⊢
        have pr' := pr.append
        rw [← hdr] at pr'
        refine Gated.iff ?_ (pairs_drop_right (P := pre2) (fun b hb a ha => by
          have := hpre2 b hb; have := hVv a ha; omega))
        have wR' := wR.append_right
        simp only [al'.1, ar'.1, ok_bind] at h ⊢
        by_cases hvw' : v.id = w.id
        · have cv := wL'.head.card_pos
          have cw := wR'.head.card_pos
          refine Gated.iff ?_ (pairs_cons hvw' wL'.head_lt wR'.head_lt)
          rw [pl'.1, pr'.1]
          rw [if_pos hvw'] at h ⊢
          simp only [al'.2.1, ar'.2.1, ok_bind, Nat.sub_add_cancel cv, Nat.sub_add_cancel cw] at h ⊢
          refine Gated.step h (fun _ e => intersect_blocks_aligned wL'.head wR'.head e) ?_
          rintro ⟨n, buf1⟩ - h
          simp only at h ⊢
          by_cases c : l' + 2 = end_l ∨ r' + 2 = end_r
          · rw [if_pos c] at h ⊢
            refine Gated.of_true (pairs_none ?_) h
            rcases c with c | c
            · obtain rfl : V = [] := List.length_eq_zero_iff.mp (by omega)
              exact fun a ha => nomatch ha
            · obtain rfl : W = [] := List.length_eq_zero_iff.mp (by omega)
              exact fun a _ b hb => nomatch hb
          · rw [if_neg c] at h ⊢
            exact ih (L := V) (R := W) (by intro h0; subst h0; simp at el; omega)
              (by intro h0; subst h0; simp at hlenR; omega) wL'.tail wR'.tail al'.2.2.2 ar'.2.2.2
              pl'.2 pr'.2 (by omega) (by omega) (by omega) h
        · rw [if_neg hvw'] at h ⊢
          have hp2 : 0 < pre2.length := by
            rcases Nat.eq_zero_or_pos pre2.length with h0 | h0
            · have : pre2 = [] := List.length_eq_zero_iff.mp h0
              subst this
              simp only [List.nil_append, List.cons.injEq] at hRW
              rw [hRW.1] at hkv
              omega
            · exact h0
          exact ih (by simp) (by simp) wL' wR' al' ar' pl' pr' (by simp; omega) (by simp; omega)
            (by simp; omega) h

theorem ss_intersect_chunk_aligned {dbg : Bool} {tab : Nat → List Nat} {m : Mem}
    {base l r out : Nat} {L R : List Blk} {buf : List Nat} {o : Nat × List Nat}
    (hL : L ≠ []) (hR : R ≠ []) (wL : BlocksWF L) (wR : BlocksWF R)
    (al : BlocksAt 0 m l (l + 2 * L.length) L) (ar : BlocksAt 0 m r (r + 2 * R.length) R)
    (h : ss_intersect_chunk dbg tab m l r L.length R.length base buf out = .ok o) :
    Gated (Pairs Blk.id (fun a b => BlkGate (blkPos (l + 2 * L.length) L a.id)
        (blkPos (r + 2 * R.length) R b.id) a b) L R)
      (ss_intersect_chunkA dbg tab m l r L.length R.length base buf out) (.ok o) := by
  have h1 := List.length_pos_iff.mpr hL
  have h2 := wL.length_le
  have h3 := List.length_pos_iff.mpr hR
  have h4 := wR.length_le
  unfold ss_intersect_chunk at h
  unfold ss_intersect_chunkA
  rw [cassert_of (by simp; omega), cassert_of (by simp; omega)] at h ⊢
  simp only [ok_bind, show L.length * 2 = 2 * L.length by omega,
    show R.length * 2 = 2 * R.length by omega] at h ⊢
  exact (Gated.step (Q := True) h (fun _ e => ss_intersect_chunk_loop_aligned _ hL hR wL wR al ar
    (blksPlaced_blkPos wL) (blksPlaced_blkPos wR) rfl rfl (by omega) e)
    (fun _ _ e => Gated.same e)).iff (and_iff_left trivial)

/-! ## Chunks -/

theorem decode_sparse_chunk_aligned {dbg : Bool} {m : Mem} {begin base p : Nat} {bs : List Blk}
    {out : List Nat} {o : Nat × List Nat} (hw : BlocksWF bs)
    (ha : BlocksAt 0 m begin (begin + 2 * bs.length) bs)
    (h : decode_sparse_chunk dbg m begin bs.length base out p = .ok o) :
    Gated (blocksAligned (begin + 2 * bs.length) bs)
      (decode_sparse_chunkA dbg m begin bs.length base out p) (.ok o) := by
  unfold decode_sparse_chunk at h
  unfold decode_sparse_chunkA
  obtain ⟨_, e, h⟩ := bind_ok h
  rw [e]
  simp only [ok_bind, show bs.length * 2 = 2 * bs.length by omega] at h ⊢
  exact (Gated.step (Q := True) h (fun _ e => decode_sparse_chunk_loop_aligned _ hw ha rfl (by omega) e)
    (fun _ _ e => Gated.same e)).iff (and_iff_left trivial)

/-- all the bitmaps that are read for the intersection of two chunks of the same slice are at
multiples of 8; the blocks of a chunk are copied if the other chunk is a bitmap -/
def BodyGate (dl dr : Nat) : Body → Body → Prop
  | .full, .full => True
  | .full, .dense _ => dr % 8 = 0
  | .full, .sparse bs => blocksAligned (dr + 2 * bs.length) bs
  | .dense _, .full => dl % 8 = 0
  | .dense _, .dense _ => dl % 8 = 0 ∧ dr % 8 = 0
  | .dense _, .sparse _ => dl % 8 = 0
  | .sparse as, .full => blocksAligned (dl + 2 * as.length) as
  | .sparse _, .dense _ => dr % 8 = 0
  | .sparse as, .sparse bs => Pairs Blk.id (fun a b => BlkGate
      (blkPos (dl + 2 * as.length) as a.id) (blkPos (dr + 2 * bs.length) bs b.id) a b) as bs

theorem ds_intersect_chunk_aligned {dbg : Bool} {m : Mem} {l r blocks base out : Nat}
    {x buf : List Nat} {o : Nat × List Nat × List Nat}
    (h : ds_intersect_chunk dbg m l r blocks base x buf out = .ok o) :
    Gated (l % 8 = 0) (ds_intersect_chunkA dbg m l r blocks base x buf out) (.ok o) := by
  unfold ds_intersect_chunk at h
  unfold ds_intersect_chunkA
  dsimp only at h ⊢
  refine (Gated.step (P := True) (Q := l % 8 = 0) h (fun _ e => Gated.same e) ?_).iff
    (and_iff_right trivial)
  rintro x1 - h
  refine (Gated.step (Q := True) h
    (fun _ e => operate_bitmaps_aligned (by decide) (memWordsA_cases m l) (words_cases _) e)
    (fun _ _ e => Gated.same e)).iff ?_
  simp

theorem intersect_chunks_aligned {dbg : Bool} {tab : Nat → List Nat} {m : Mem}
    {il ir : It} {a b : Chk} {L R : List Chk} {base out : Nat}
    {x buf : List Nat} {o : Nat × List Nat × List Nat} (hhl : il.header % 2 = 0)
    (hhr : ir.header % 2 = 0) (hl : ItOn 0 m il (a :: L)) (hr : ItOn 0 m ir (b :: R))
    (h : intersect_chunks dbg tab m il ir base x buf out = .ok o) :
    Gated (BodyGate il.data ir.data a.body b.body)
      (intersect_chunksA dbg tab m il ir base x buf out) (.ok o) := by
  have wa := hl.wf.head.2
  have wb := hr.wf.head.2
  have ha : BodyAt _ _ _ _ := hl.at_.2.1
  have hb : BodyAt _ _ _ _ := hr.at_.2.1
  unfold intersect_chunks at h
  unfold intersect_chunksA
  rw [It.typeA_eq hhl, It.typeA_eq hhr, It.blocksA_eq hhl, It.blocksA_eq hhr]
  cases ea : a.body with
  | full =>
    rw [hl.type_full ea] at h ⊢
    cases eb : b.body with
    | full =>
      rw [hr.type_full eb] at h ⊢
      exact Gated.of_true trivial (by
        simpa [type_sparse, type_dense, chunk_pair, type_full] using h)
    | dense vs =>
      rw [hr.type_dense eb] at h ⊢
      simp [type_sparse, type_dense, chunk_pair, type_full] at h ⊢
      exact Gated.map h (fun _ e => decode_bitmap_aligned (by decide) e)
    | sparse bs =>
      rw [hr.type_sparse eb, hr.blocks_sparse eb] at h ⊢
      simp [type_sparse, type_dense, chunk_pair, type_full] at h ⊢
      rw [eb] at wb hb
      exact Gated.map h (fun _ e => decode_sparse_chunk_aligned wb.2 hb e)
  | dense us =>
    rw [hl.type_dense ea] at h ⊢
    cases eb : b.body with
    | full =>
      rw [hr.type_full eb] at h ⊢
      simp [type_sparse, type_dense, chunk_pair, type_full] at h ⊢
      exact Gated.map h (fun _ e => decode_bitmap_aligned (by decide) e)
    | dense vs =>
      rw [hr.type_dense eb] at h ⊢
      simp [type_sparse, type_dense, chunk_pair, type_full] at h ⊢
      exact Gated.map h (fun _ e => operate_bitmaps_aligned (by decide) (memWordsA_cases m _)
        (memWordsA_cases m _) e)
    | sparse bs =>
      rw [hr.type_sparse eb, hr.blocks_sparse eb] at h ⊢
      simp [type_sparse, type_dense, chunk_pair, type_full] at h ⊢
      exact ds_intersect_chunk_aligned h
  | sparse as =>
    rw [hl.type_sparse ea, hl.blocks_sparse ea] at h ⊢
    rw [ea] at wa ha
    cases eb : b.body with
    | full =>
      rw [hr.type_full eb] at h ⊢
      simp [type_sparse, type_dense, chunk_pair, type_full] at h ⊢
      exact Gated.map h (fun _ e => decode_sparse_chunk_aligned wa.2 ha e)
    | dense vs =>
      rw [hr.type_dense eb] at h ⊢
      simp [type_sparse, type_dense, chunk_pair, type_full] at h ⊢
      exact ds_intersect_chunk_aligned h
    | sparse bs =>
      rw [hr.type_sparse eb, hr.blocks_sparse eb] at h ⊢
      rw [eb] at wb hb
      simp [type_sparse, chunk_pair] at h ⊢
      by_cases hlt : as.length < bs.length
      · simp only [hlt, if_true] at h ⊢
        exact Gated.map h (fun _ e => ss_intersect_chunk_aligned wa.1 wb.1 wa.2 wb.2 ha hb e)
      · simp only [hlt, if_false] at h ⊢
        refine Gated.iff (Gated.map h (fun _ e =>
          ss_intersect_chunk_aligned wb.1 wa.1 wb.2 wa.2 hb ha e)) ?_
        exact pairs_swap (fun _ _ => blkGate_swap)

/-- the chunk with id `k` is stored at `P k` -/
def ChkPut (m : Mem) (P : Nat → Nat) (d : Nat) (c : Chk) : Prop :=
  BodyAt 0 m d c.body ∧ d = P c.id

theorem ChunksAtP.mono {B B' : Nat → Chk → Prop} {m : Mem} (hB : ∀ d c, B d c → B' d c) {cs : List Chk}
    {h d : Nat} (k : ChunksAtP B m h d cs) : ChunksAtP B' m h d cs := by
  induction cs generalizing h d with
  | nil => trivial
  | cons c cs ih => exact ⟨k.1, hB _ _ k.2.1, ih k.2.2⟩

theorem ItOnP.body {m : Mem} {P : Nat → Nat} {it : It} {cs : List Chk} (h : ItOnP (ChkPut m P) m it cs) :
    ItOn 0 m it cs := ⟨h.end_, h.wf, h.at_.mono (fun _ _ k => k.1)⟩

theorem It.advance_loop_even {m : Mem} {lb : Nat} (f : Nat) {it it' : It} (h : it.header % 2 = 0)
    (e : It.advance_loop m lb f it = .ok it') : it'.header % 2 = 0 := by
  induction f generalizing it with
  | zero => cases e
  | succ f ih =>
    unfold It.advance_loop at e
    obtain ⟨i, -, e⟩ := bind_ok e
    split at e
    · obtain ⟨it1, e1, e⟩ := bind_ok e
      exact ih (It.next_even h e1) e
    · cases e; exact h

theorem pairwise_intersection_loop_aligned {dbg : Bool} {tab : Nat → List Nat} {m : Mem}
    {P Q : Nat → Nat} (f : Nat) {il ir : It} {L R : List Chk} {out : Nat} {x buf : List Nat}
    {o : Nat × List Nat × List Nat} (hhl : il.header % 2 = 0) (hhr : ir.header % 2 = 0)
    (hl : ItOnP (ChkPut m P) m il L) (hr : ItOnP (ChkPut m Q) m ir R)
    (hf : L.length + R.length < f)
    (h : pairwise_intersection_loop dbg tab m f il ir x buf out = .ok o) :
    Gated (Pairs Chk.id (fun a b => BodyGate (P a.id) (Q b.id) a.body b.body) L R)
      (pairwise_intersection_loopA dbg tab m f il ir x buf out) (.ok o) := by
  induction f generalizing il ir L R out x buf with
  | zero => omega
  | succ f ih =>
    cases L with
    | nil =>
      refine Gated.of_true (fun a ha => nomatch ha) ?_
      rw [← h]
      simp [pairwise_intersection_loop, pairwise_intersection_loopA, hl.has_next_nil]
    | cons a L =>
      cases R with
      | nil =>
        refine Gated.of_true (fun a _ b hb => nomatch hb) ?_
        rw [← h]
        simp [pairwise_intersection_loop, pairwise_intersection_loopA, hr.has_next_nil]
      | cons b R =>
        have ia := hl.wf.head.1
        have ib := hr.wf.head.1
        unfold pairwise_intersection_loop at h
        unfold pairwise_intersection_loopA
        rw [It.idA_eq hhl, It.idA_eq hhr, It.nextA_eq hhl, It.nextA_eq hhr]
        simp only [hl.has_next, hr.has_next, Bool.and_self, if_true, hl.id, hr.id, ok_bind,
          u16_lt (show a.id < 65536 by omega), u16_lt (show b.id < 65536 by omega)] at h ⊢
        by_cases hab : a.id = b.id
        · rw [if_pos hab] at h ⊢
          refine Gated.iff ?_ (pairs_cons hab hl.wf.head_lt hr.wf.head_lt)
          rw [← hl.at_.2.1.2, ← hr.at_.2.1.2]
          refine Gated.step h (fun _ e => intersect_chunks_aligned hhl hhr hl.body hr.body e) ?_
          rintro ⟨n, x1, o1⟩ - h
          simp only at h ⊢
          obtain ⟨il', n1, hl', -⟩ := hl.next
          obtain ⟨ir', n2, hr', -⟩ := hr.next
          simp only [n1, n2, ok_bind] at h ⊢
          simp only [List.length_cons] at hf
          exact ih (It.next_even hhl n1) (It.next_even hhr n2) hl' hr' (by omega) h
        · rw [if_neg hab] at h ⊢
          by_cases hlt : a.id < b.id
          · rw [if_pos hlt] at h ⊢
            obtain ⟨it', e, hit, -⟩ := It.advance_spec (lb := b.id) hl
            have := fromId_length_lt (A := L) hlt
            unfold It.advanceA
            rw [It.advance_loopA_eq _ hhl]
            have e' := e
            unfold It.advance at e'
            rw [e', ok_bind]
            rw [e, ok_bind] at h
            exact (ih (It.advance_loop_even _ hhl e') hhr hit hr (by omega) h).iff
              (pairs_fromId_left hr.wf.ge_head)
          · rw [if_neg hlt] at h ⊢
            obtain ⟨it', e, hit, -⟩ := It.advance_spec (lb := a.id) hr
            have := fromId_length_lt (A := R) (show b.id < a.id by omega)
            unfold It.advanceA
            rw [It.advance_loopA_eq _ hhr]
            have e' := e
            unfold It.advance at e'
            rw [e', ok_bind]
            rw [e, ok_bind] at h
            exact (ih hhl (It.advance_loop_even _ hhr e') hl hit (by omega) h).iff
              (pairs_fromId_right hl.wf.ge_head)

theorem pairwise_intersection_aligned {dbg : Bool} {tab : Nat → List Nat} {m : Mem}
    {P Q : Nat → Nat} {l r : SSeq} {L R : List Chk} {out : Nat} {x buf : List Nat}
    {o : Nat × List Nat × List Nat} (hhl : l.header % 2 = 0) (hhr : r.header % 2 = 0)
    (hl : SeqAtP (ChkPut m P) m l L) (hr : SeqAtP (ChkPut m Q) m r R)
    (h : pairwise_intersection dbg tab m l r x buf out = .ok o) :
    Gated (Pairs Chk.id (fun a b => BodyGate (P a.id) (Q b.id) a.body b.body) L R)
      (pairwise_intersectionA dbg tab m l r x buf out) (.ok o) := by
  unfold pairwise_intersection at h
  unfold pairwise_intersectionA
  exact (Gated.step (Q := True) h (fun _ e => pairwise_intersection_loop_aligned _ (il := l.begin)
    (ir := r.begin) hhl hhr hl.begin hr.begin (by rw [hl.chunks, hr.chunks]; omega) e)
    (fun _ _ e => Gated.same e)).iff (and_iff_left trivial)

end Sliced
