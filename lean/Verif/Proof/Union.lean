import Verif.Proof.UnionBlock
import Verif.Proof.Intersection
/-! # Union of two chunks and of two sequences -/
namespace Sliced

theorem blk_lt {a : Blk} {bs : List Blk} (wa : a.WF) (wb : BlocksWF bs)
    (h : ∀ b ∈ bs, a.id < b.id) : ∀ x ∈ a.elems, ∀ y ∈ blkElems bs, x < y := by
  intro x hx y hy
  unfold blkElems at hy
  rw [List.mem_flatMap] at hy
  obtain ⟨b, hb, hy⟩ := hy
  have h1 := wa.elems_bound x hx
  have h2 := (wb.2 b hb).elems_bound y hy
  have := h b hb
  omega

theorem blkElems_cons' (b : Blk) (bs : List Blk) : blkElems (b :: bs) = b.elems ++ blkElems bs := rfl

theorem decode_macro_spec {m : Mem} {base p d out : Nat} {b : Blk} {bs : List Blk}
    {buf : List Nat} (hw : b.WF) (h : BlocksAt 31 m p d (b :: bs)) (hb : base + 65536 ≤ 4294967296)
    (hcap : out + b.elems.length + 23 ≤ buf.length) :
    ∃ buf', decode_macro m base p d buf out
        = .ok (out + b.elems.length, buf', d + b.size, p + 2) ∧
      Wrote buf out (b.elems.map (base + ·)) 23 buf' := by
  obtain ⟨h1, h2, h3, -⟩ := h
  have hid := hw.1
  have hc := hw.card_pos
  have hl : b.elems.length = b.vals.length := List.length_map _
  rw [hl] at hcap ⊢
  obtain ⟨o, e, w⟩ := decode_blk_spec (p := out) (out := buf) (base := base + b.id * 256) hw h3
    (by omega) hcap
  refine ⟨o, ?_, by rw [← map_elems]; exact w⟩
  have : decode_block m d (block_type b.vals.length) b.vals.length (base + b.id * 256) buf out
      = .ok (b.vals.length, o) := by
    rw [← e]
    unfold decode_block block_type
    by_cases hc' : b.vals.length < 31
    · rw [if_pos hc', if_pos rfl, if_pos hc']
    · rw [if_neg hc', if_neg (by simp [type_dense, type_sparse]), if_neg hc']
  unfold decode_macro
  simp only [h1, h2, ok_bind, Nat.sub_add_cancel hc, u32_lt (show base + b.id * 256 < 4294967296 by omega),
    this, pure_ok]
  rfl

theorem decode_rest_spec {m : Mem} {end_ base : Nat} (f : Nat) {p d out : Nat} {bs : List Blk}
    {buf : List Nat} (hw : BlocksWF bs) (h : BlocksAt 31 m p d bs) (he : p + 2 * bs.length = end_)
    (hf : bs.length < f) (hb : base + 65536 ≤ 4294967296)
    (hcap : out + (blkElems bs).length + 23 ≤ buf.length) :
    ∃ buf', decode_rest m end_ base f p d buf out = .ok (out + (blkElems bs).length, buf') ∧
      Wrote buf out ((blkElems bs).map (base + ·)) 23 buf' := by
  induction bs generalizing f p d out buf with
  | nil =>
    obtain ⟨f, rfl⟩ : ∃ g, f = g + 1 := ⟨f - 1, by simp at hf; omega⟩
    simp at he
    refine ⟨buf, ?_, by simpa [blkElems] using Wrote.nil _ _ _⟩
    simp [decode_rest, he, blkElems]
  | cons b bs ih =>
    obtain ⟨f, rfl⟩ : ∃ g, f = g + 1 := ⟨f - 1, by simp at hf; omega⟩
    rw [blkElems_cons', List.length_append] at hcap
    rw [blkElems_cons', List.length_append]
    simp only [List.length_cons] at he hf
    obtain ⟨o1, e1, w1⟩ := decode_macro_spec (out := out) (buf := buf) hw.head h hb (by omega)
    have l1 := w1.length
    obtain ⟨o2, e2, w2⟩ := ih f (p := p + 2) (d := d + b.size) (out := out + b.elems.length)
      (buf := o1) hw.tail h.2.2.2 (by omega) (by omega) (by omega)
    refine ⟨o2, ?_, ?_⟩
    · unfold decode_rest
      rw [if_pos (by omega)]
      simp only [e1, ok_bind, e2, Nat.add_assoc]
    · rw [List.map_append]
      exact Wrote.append w1 (by simpa using w2)

/-- Relative position of the data of two lists of blocks. -/
def BlocksPos (dl : Nat) (L : List Blk) (dr : Nat) (R : List Blk) : Prop :=
  (dl = dr ∧ L = R) ∨ Apart dl (blkBytes L) dr (blkBytes R)

theorem blkBytes_cons' (b : Blk) (bs : List Blk) : blkBytes (b :: bs) = b.size + blkBytes bs := by
  simp [blkBytes]

theorem ss_union_chunk_loop_spec {dbg : Bool} {m : Mem} {end_l end_r base : Nat} (f : Nat)
    {s : UState} {L R : List Blk}
    (hL : L ≠ []) (hR : R ≠ []) (wL : BlocksWF L) (wR : BlocksWF R)
    (al : BlocksAt 31 m s.l s.data_l L) (ar : BlocksAt 31 m s.r s.data_r R)
    (el : s.l + 2 * L.length = end_l) (er : s.r + 2 * R.length = end_r)
    (hpos : BlocksPos s.data_l L s.data_r R) (hx : WordsBuf 4 s.x4)
    (hf : L.length + R.length < f) (hb : base + 65536 ≤ 4294967296)
    (hcap : s.out + (uni (blkElems L) (blkElems R)).length + 23 ≤ s.buf.length) :
    ∃ s' L' R' W, ss_union_chunk_loop dbg m end_l end_r base f s = .ok s' ∧
      uni (blkElems L) (blkElems R) = W ++ uni (blkElems L') (blkElems R') ∧
      (L' = [] ∨ R' = []) ∧ BlocksWF L' ∧ BlocksWF R' ∧
      BlocksAt 31 m s'.l s'.data_l L' ∧ BlocksAt 31 m s'.r s'.data_r R' ∧
      s'.l + 2 * L'.length = end_l ∧ s'.r + 2 * R'.length = end_r ∧
      L'.length ≤ L.length ∧ R'.length ≤ R.length ∧ WordsBuf 4 s'.x4 ∧
      s'.out = s.out + W.length ∧ Wrote s.buf s.out (W.map (base + ·)) 23 s'.buf := by
  induction f generalizing s L R with
  | zero => omega
  | succ f ih =>
    obtain ⟨a, L, rfl⟩ := List.exists_cons_of_ne_nil hL
    obtain ⟨b, R, rfl⟩ := List.exists_cons_of_ne_nil hR
    obtain ⟨l, dl, r, dr, out, x4, buf⟩ := s
    simp only at al ar el er hpos hx hcap
    simp only [List.length_cons] at el er hf
    have sLf := wL.sorted
    have sRf := wR.sorted
    have hA := al.2.2.2
    have hB := ar.2.2.2
    simp only [ss_union_chunk_loop, al.1, ar.1, ok_bind]
    by_cases h1 : a.id < b.id
    · have hu : uni (blkElems (a :: L)) (blkElems (b :: R))
          = a.elems ++ uni (blkElems L) (blkElems (b :: R)) :=
        uni_append_left sLf sRf (blk_lt wL.head wR (fun c hc => Nat.lt_of_lt_of_le h1 (wR.ge_head c hc)))
      rw [hu, List.length_append] at hcap
      rw [if_pos h1]
      obtain ⟨o1, e1, w1⟩ := decode_macro_spec (base := base) (out := out) (buf := buf) wL.head al hb
        (by omega)
      have l1 := w1.length
      simp only [e1, ok_bind]
      by_cases hend : l + 2 = end_l
      · rw [if_pos hend]
        have : L = [] := List.length_eq_zero_iff.mp (by omega)
        subst this
        exact ⟨_, [], b :: R, a.elems, rfl, hu, Or.inl rfl, wL.tail, wR, hA, ar, by simpa using hend,
          by simp; omega, by simp, by simp, hx, rfl, w1⟩
      · rw [if_neg hend]
        obtain ⟨s', L', R', W, e, u, emp, wL', wR', al', ar', el', er', gl, gr, hx', ho, w⟩ :=
          ih (s := ⟨l + 2, dl + a.size, r, dr, out + a.elems.length, x4, o1⟩) (L := L) (R := b :: R)
            (by intro h; subst h; simp at el; omega) (by simp) wL.tail wR hA ar (by simp; omega)
            (by simp; omega) (by
              refine Or.inr ?_
              rcases hpos with ⟨_, h⟩ | h | h
              · rw [List.cons.injEq] at h; rw [h.1] at h1; omega
              · rw [blkBytes_cons'] at h; exact Or.inl (by simp only; omega)
              · exact Or.inr (by simp only; omega)) hx
            (by simp; omega) (by simp only; omega)
        refine ⟨s', L', R', a.elems ++ W, e, by rw [hu, u, List.append_assoc], emp, wL', wR', al', ar',
          el', er', by simp; omega, gr, hx', ?_, ?_⟩
        · rw [ho, List.length_append]; simp [Nat.add_assoc]
        · rw [List.map_append]
          exact Wrote.append w1 (by simpa using w)
    · rw [if_neg h1]
      by_cases h2 : a.id > b.id
      · have hu : uni (blkElems (a :: L)) (blkElems (b :: R))
            = b.elems ++ uni (blkElems (a :: L)) (blkElems R) :=
          uni_append_right sLf sRf
            (blk_lt wR.head wL (fun c hc => Nat.lt_of_lt_of_le h2 (wL.ge_head c hc)))
        rw [hu, List.length_append] at hcap
        rw [if_pos h2]
        obtain ⟨o1, e1, w1⟩ := decode_macro_spec (base := base) (out := out) (buf := buf) wR.head ar hb
          (by omega)
        have l1 := w1.length
        simp only [e1, ok_bind]
        by_cases hend : r + 2 = end_r
        · rw [if_pos hend]
          have : R = [] := List.length_eq_zero_iff.mp (by omega)
          subst this
          exact ⟨_, a :: L, [], b.elems, rfl, hu, Or.inr rfl, wL, wR.tail, al, hB,
            by simp; omega, by simpa using hend, by simp, by simp, hx, rfl, w1⟩
        · rw [if_neg hend]
          obtain ⟨s', L', R', W, e, u, emp, wL', wR', al', ar', el', er', gl, gr, hx', ho, w⟩ :=
            ih (s := ⟨l, dl, r + 2, dr + b.size, out + b.elems.length, x4, o1⟩) (L := a :: L) (R := R)
              (by simp) (by intro h; subst h; simp at er; omega) wL wR.tail al hB (by simp; omega)
              (by simp; omega) (by
                refine Or.inr ?_
                rcases hpos with ⟨_, h⟩ | h | h
                · rw [List.cons.injEq] at h; rw [h.1] at h2; omega
                · exact Or.inl (by simp only; omega)
                · rw [blkBytes_cons'] at h; exact Or.inr (by simp only; omega)) hx
              (by simp; omega) (by simp only; omega)
          refine ⟨s', L', R', b.elems ++ W, e, by rw [hu, u, List.append_assoc], emp, wL', wR', al',
            ar', el', er', gl, by simp; omega, hx', ?_, ?_⟩
          · rw [ho, List.length_append]; simp [Nat.add_assoc]
          · rw [List.map_append]
            exact Wrote.append w1 (by simpa using w)
      · have hab : a.id = b.id := by omega
        rw [if_neg h2]
        have hu : uni (blkElems (a :: L)) (blkElems (b :: R))
            = uni a.elems b.elems ++ uni (blkElems L) (blkElems R) :=
          uni_append_both sLf sRf
            (blk_lt wL.head wR.tail (fun c hc => by have := wR.head_lt c hc; omega))
            (blk_lt wR.head wL.tail (fun c hc => by have := wL.head_lt c hc; omega))
        have hue : uni a.elems b.elems = (uni a.vals b.vals).map (a.id * 256 + ·) := by
          unfold Blk.elems
          rw [← hab, uni_map_add _ wL.head.2.2.1 wR.head.2.2.1]
        rw [hue] at hu
        rw [hu, List.length_append, List.length_map] at hcap
        have hid := wL.head.1
        have hu32 : u32 (base + a.id * 256) = base + a.id * 256 := u32_lt (by omega)
        have ca := wL.head.card_pos
        have cb := wR.head.card_pos
        have hpos1 : (dl = dr ∧ a = b) ∨ Apart dl a.size dr b.size := by
          rcases hpos with ⟨h, h'⟩ | h | h
          · exact Or.inl ⟨h, (List.cons.injEq .. ▸ h').1⟩
          · rw [blkBytes_cons'] at h; exact Or.inr (Or.inl (by omega))
          · rw [blkBytes_cons'] at h; exact Or.inr (Or.inr (by omega))
        obtain ⟨x4', o1, e1, hx1, w1⟩ := union_blocks_spec (dbg := dbg) wL.head wR.head al.2.2.1
          ar.2.2.1 hpos1 hx (base := base + a.id * 256) (out := out) (buf := buf) (by omega) (by omega)
        have l1 := w1.length
        have hmap : (uni a.vals b.vals).map (base + a.id * 256 + ·)
            = ((uni a.vals b.vals).map (a.id * 256 + ·)).map (base + ·) := by
          rw [List.map_map]
          apply List.map_congr_left
          intro x _
          simp only [Function.comp]; omega
        rw [hmap] at w1
        simp only [al.2.1, ar.2.1, ok_bind, Nat.sub_add_cancel ca, Nat.sub_add_cancel cb, hu32, e1]
        by_cases hend : l + 2 = end_l ∨ r + 2 = end_r
        · rw [if_pos hend]
          refine ⟨_, L, R, _, rfl, hu, ?_, wL.tail, wR.tail, hA, hB, by simp only; omega,
            by simp only; omega, by simp, by simp, hx1, by simp, w1⟩
          rcases hend with h | h
          · exact Or.inl (List.length_eq_zero_iff.mp (by omega))
          · exact Or.inr (List.length_eq_zero_iff.mp (by omega))
        · rw [if_neg hend]
          obtain ⟨s', L', R', W, e, u, emp, wL', wR', al', ar', el', er', gl, gr, hx', ho, w⟩ :=
            ih (s := ⟨l + 2, dl + bytes_by_cardinality a.vals.length, r + 2,
                dr + bytes_by_cardinality b.vals.length,
                out + (uni a.vals b.vals).length, x4', o1⟩) (L := L) (R := R)
              (by intro h; subst h; simp at el; omega) (by intro h; subst h; simp at er; omega)
              wL.tail wR.tail hA hB (by simp; omega) (by simp; omega) (by
                rcases hpos with ⟨h, h'⟩ | h | h
                · rw [List.cons.injEq] at h'
                  refine Or.inl ⟨?_, h'.2⟩
                  simp only [h, h'.1]
                · rw [blkBytes_cons', Blk.size] at h; exact Or.inr (Or.inl (by simp only; omega))
                · rw [blkBytes_cons', Blk.size] at h; exact Or.inr (Or.inr (by simp only; omega))) hx1
              (by omega) (by simp only; omega)
          refine ⟨s', L', R', (uni a.vals b.vals).map (a.id * 256 + ·) ++ W, e,
            by rw [hu, u, List.append_assoc], emp, wL', wR', al', ar', el', er', by simp; omega,
            by simp; omega, hx', ?_, ?_⟩
          · rw [ho, List.length_append, List.length_map]; simp [Nat.add_assoc]
          · rw [List.map_append]
            exact Wrote.append w1 (by simpa using w)

theorem ss_union_chunk_spec {dbg : Bool} {m : Mem} {base l r out : Nat} {L R : List Blk}
    {x4 buf : List Nat} (hL : L ≠ []) (hR : R ≠ []) (wL : BlocksWF L) (wR : BlocksWF R)
    (al : BlocksAt 31 m l (l + 2 * L.length) L) (ar : BlocksAt 31 m r (r + 2 * R.length) R)
    (hpos : BlocksPos (l + 2 * L.length) L (r + 2 * R.length) R) (hx : WordsBuf 4 x4)
    (hb : base + 65536 ≤ 4294967296)
    (hcap : out + (uni (blkElems L) (blkElems R)).length + 23 ≤ buf.length) :
    ∃ x4' buf', ss_union_chunk dbg m l r L.length R.length base x4 buf out
        = .ok ((uni (blkElems L) (blkElems R)).length, x4', buf') ∧ WordsBuf 4 x4' ∧
      Wrote buf out ((uni (blkElems L) (blkElems R)).map (base + ·)) 23 buf' := by
  have h1 := List.length_pos_iff.mpr hL
  have h2 := wL.length_le
  have h3 := List.length_pos_iff.mpr hR
  have h4 := wR.length_le
  obtain ⟨s', L', R', W, e, u, emp, wL', wR', al', ar', el', er', gl, gr, hx', ho, w⟩ :=
    ss_union_chunk_loop_spec (dbg := dbg) (end_l := l + 2 * L.length) (end_r := r + 2 * R.length)
      (base := base) (s := ⟨l, l + 2 * L.length, r, r + 2 * R.length, out, x4, buf⟩)
      (L.length + R.length + 1) hL hR wL wR al ar rfl rfl hpos hx (by omega) hb hcap
  have emp' : blkElems L' = [] ∨ blkElems R' = [] := emp.imp (fun h => by rw [h]; rfl) (fun h => by rw [h]; rfl)
  rw [uni_of_nil emp'] at u
  have hlen := congrArg List.length u
  rw [List.length_append, List.length_append] at hlen
  simp only at ho w
  have l0 := w.length
  obtain ⟨o1, e1, w1⟩ := decode_rest_spec (base := base) (L.length + 1) (out := s'.out)
    (buf := s'.buf) wL' al' el' (by omega) hb (by omega)
  have l1 := w1.length
  obtain ⟨o2, e2, w2⟩ := decode_rest_spec (base := base) (R.length + 1)
    (out := s'.out + (blkElems L').length) (buf := o1) wR' ar' er' (by omega) hb (by omega)
  refine ⟨s'.x4, o2, ?_, hx', ?_⟩
  · unfold ss_union_chunk
    rw [cassert_of (by simp; omega), cassert_of (by simp; omega)]
    simp only [ok_bind, show L.length * 2 = 2 * L.length by omega,
      show R.length * 2 = 2 * R.length by omega, e, e1, e2, pure_ok]
    congr 2
    omega
  · rw [u, List.map_append, List.map_append, ← List.append_assoc]
    rw [ho] at w1 w2
    exact Wrote.append (Wrote.append w (by simpa using w1)) (by simpa [Nat.add_assoc] using w2)

theorem ds_union_chunk_spec {dbg : Bool} {pad : Nat} {m : Mem} {base l r out : Nat} {vs : List Nat}
    {R : List Blk} {x buf : List Nat} (hv : (Body.dense vs).WF)
    (al : BitsAt (memWords m l) 1024 (fun y => decide (y ∈ vs))) (hR : R ≠ []) (wR : BlocksWF R)
    (ar : BlocksAt pad m r (r + 2 * R.length) R) (hx : x.length = 1024)
    (hb : base + 65536 ≤ 4294967296)
    (hcap : out + (uni vs (blkElems R)).length ≤ buf.length) :
    ∃ x' buf', ds_union_chunk dbg m l r R.length base x buf out
        = .ok ((uni vs (blkElems R)).length, x', buf') ∧ x'.length = 1024 ∧
      Wrote buf out ((uni vs (blkElems R)).map (base + ·)) 0 buf' := by
  have hz : BufIs (List.replicate x.length 0) (fun _ => false) :=
    bufIs_replicate (by omega) (fun j _ _ => by simp)
  obtain ⟨x', e1, l1, b1⟩ := uncompress_sparse_chunk_spec (dbg := dbg)
    (out := List.replicate x.length 0)
    (p := 0) hR wR ar hz (by rw [List.length_replicate]; omega) (fun _ _ _ => rfl)
  rw [List.length_replicate, hx] at l1
  have b2 := b1.bitsAt (n := 1024) (by omega)
  have b3 : BitsAt (vecWords x') 1024 (fun y => decide (y ∈ blkElems R)) := by
    simpa using b2
  obtain ⟨o, e2, w2⟩ := or_bitmaps_spec (A := vs) (B := blkElems R) al b3 (fun _ _ => rfl) hv.2.1
    wR.sorted hv.2.2 wR.bound (base := base) (out := out) (buf := buf) hb (by omega) hcap
  refine ⟨x', o, ?_, l1, w2⟩
  unfold ds_union_chunk
  simp only [e1, ok_bind]
  have : chunk_size_in_64bit_words = 1024 := rfl
  rw [this, e2]
  rfl

theorem uni_full_right {A : List Nat} (hs : A.Pairwise (· < ·)) (h : ∀ x ∈ A, x < 65536) :
    uni A (List.range 65536) = List.range 65536 := by
  symm
  apply uni_unique hs (range_sorted _) (range_sorted _)
  intro x
  rw [List.mem_range]
  exact ⟨Or.inr, fun hx => hx.elim (h x) (fun h => h)⟩

theorem uni_full_left {A : List Nat} (hs : A.Pairwise (· < ·)) (h : ∀ x ∈ A, x < 65536) :
    uni (List.range 65536) A = List.range 65536 := by
  rw [uni_comm (range_sorted _) hs, uni_full_right hs h]

/-- Relative position of the data of two chunks. -/
def BodyPos (dl : Nat) (a : Body) (dr : Nat) (b : Body) : Prop :=
  (dl = dr ∧ a = b) ∨ dl + a.off ≤ dr ∨ dr + b.off ≤ dl

/-- the static buffers of `pairwise_union` -/
def UScratch.Ok (s : UScratch) : Prop := WordsBuf 4 s.x4 ∧ s.x.length = 1024

theorem BodyPos.symm {dl dr : Nat} {a b : Body} (h : BodyPos dl a dr b) : BodyPos dr b dl a := by
  rcases h with ⟨h1, h2⟩ | h | h
  · exact Or.inl ⟨h1.symm, h2.symm⟩
  · exact Or.inr (Or.inr h)
  · exact Or.inr (Or.inl h)

theorem BodyPos.blocks {dl dr : Nat} {L R : List Blk} (hL : L ≠ []) (hR : R ≠ [])
    (h : BodyPos dl (.sparse L) dr (.sparse R)) :
    BlocksPos (dl + 2 * L.length) L (dr + 2 * R.length) R := by
  have h1 := List.length_pos_iff.mpr hL
  have h3 := List.length_pos_iff.mpr hR
  simp only [BodyPos, Body.off] at h
  rcases h with ⟨h, h'⟩ | h | h
  · simp only [Body.sparse.injEq] at h'
    subst h'
    exact Or.inl ⟨by omega, rfl⟩
  · exact Or.inr (Or.inl (by omega))
  · exact Or.inr (Or.inr (by omega))

/-- The switch over the nine pairs of chunk types. -/
theorem union_chunks_spec {dbg : Bool} {m : Mem} {il ir : It} {a b : Chk} {L R : List Chk}
    {base out : Nat} {s : UScratch} {buf : List Nat}
    (hl : ItOn 31 m il (a :: L)) (hr : ItOn 31 m ir (b :: R)) (hb : base + 65536 ≤ 4294967296)
    (hs : s.Ok) (hpos : BodyPos il.data a.body ir.data b.body)
    (hcap : out + (uni a.body.vals b.body.vals).length + 23 ≤ buf.length) :
    ∃ s' buf', union_chunks dbg m il ir base s buf out
        = .ok ((uni a.body.vals b.body.vals).length, s', buf') ∧ s'.Ok ∧
      Wrote buf out ((uni a.body.vals b.body.vals).map (base + ·)) 23 buf' := by
  have wa := hl.wf.head.2
  have wb := hr.wf.head.2
  have sa := wa.sorted
  have sb := wb.sorted
  have ba := wa.bound
  have bb := wb.bound
  have ha : BodyAt _ _ _ _ := hl.at_.2.1
  have hb' : BodyAt _ _ _ _ := hr.at_.2.1
  have c1024 : chunk_size_in_64bit_words = 1024 := rfl
  have hfull : out + 65536 ≤ buf.length → ∃ o, decode_full_chunk base buf out = .ok (65536, o) ∧
      Wrote buf out ((List.range 65536).map (base + ·)) 23 o := by
    intro h
    obtain ⟨o, e, w⟩ := decode_full_chunk_spec (p := out) (out := buf) hb h
    exact ⟨o, e, w.mono (by omega)⟩
  unfold union_chunks
  cases ea : a.body with
  | full =>
    rw [hl.type_full ea]
    rw [ea] at hcap
    have hv : uni Body.full.vals b.body.vals = List.range 65536 := uni_full_left sb bb
    rw [hv] at hcap ⊢
    rw [List.length_range] at hcap ⊢
    obtain ⟨o, e, w⟩ := hfull (by omega)
    refine ⟨s, o, ?_, hs, w⟩
    cases eb : b.body with
    | full => rw [hr.type_full eb]; simp [type_sparse, type_dense, chunk_pair, e, type_full]
    | dense vs => rw [hr.type_dense eb]; simp [type_sparse, type_dense, chunk_pair, e, type_full]
    | sparse bs => rw [hr.type_sparse eb]; simp [type_sparse, type_dense, chunk_pair, e, type_full]
  | dense us =>
    rw [hl.type_dense ea]
    rw [ea] at hcap wa sa ba ha
    cases eb : b.body with
    | full =>
      rw [hr.type_full eb]
      rw [eb] at hcap
      have hv : uni (Body.dense us).vals Body.full.vals = List.range 65536 := uni_full_right sa ba
      rw [hv] at hcap ⊢
      rw [List.length_range] at hcap ⊢
      obtain ⟨o, e, w⟩ := hfull (by omega)
      refine ⟨s, o, ?_, hs, w⟩
      simp [type_sparse, type_dense, chunk_pair, e, type_full]
    | dense vs =>
      rw [hr.type_dense eb]
      rw [eb] at hcap wb sb bb hb'
      obtain ⟨o, e, w⟩ := or_bitmaps_spec (A := us) (B := vs) (n := 1024)
        (P := fun x => decide (x ∈ us)) (Q := fun x => decide (x ∈ vs)) ha hb' (fun _ _ => rfl) sa sb ba bb
        (base := base) (out := out) (buf := buf) hb (by omega)
        (by simp only [Body.vals] at hcap ⊢; omega)
      refine ⟨s, o, ?_, hs, w.mono (by omega)⟩
      simp [type_sparse, type_dense, chunk_pair, e, type_full, c1024, Body.vals]
    | sparse bs =>
      rw [hr.type_sparse eb]
      have hbl := hr.blocks_sparse eb
      rw [eb] at hcap wb sb bb hb'
      obtain ⟨x', o, e, lx, w⟩ := ds_union_chunk_spec (dbg := dbg) wa ha wb.1 wb.2 hb' hs.2 hb
        (out := out) (buf := buf) (by simp only [Body.vals] at hcap ⊢; omega)
      refine ⟨{ s with x := x' }, o, ?_, ⟨hs.1, lx⟩, w.mono (by omega)⟩
      simp [type_sparse, type_dense, chunk_pair, e, type_full, hbl, Body.vals]
  | sparse as =>
    rw [hl.type_sparse ea]
    have hal := hl.blocks_sparse ea
    rw [ea] at hcap wa sa ba ha
    cases eb : b.body with
    | full =>
      rw [hr.type_full eb]
      rw [eb] at hcap
      have hv : uni (Body.sparse as).vals Body.full.vals = List.range 65536 := uni_full_right sa ba
      rw [hv] at hcap ⊢
      rw [List.length_range] at hcap ⊢
      obtain ⟨o, e, w⟩ := hfull (by omega)
      refine ⟨s, o, ?_, hs, w⟩
      simp [type_sparse, type_dense, chunk_pair, e, type_full]
    | dense vs =>
      rw [hr.type_dense eb]
      rw [eb] at hcap wb sb bb hb'
      rw [uni_comm sa sb] at hcap ⊢
      obtain ⟨x', o, e, lx, w⟩ := ds_union_chunk_spec (dbg := dbg) wb hb' wa.1 wa.2 ha hs.2 hb
        (out := out) (buf := buf) (by simp only [Body.vals] at hcap ⊢; omega)
      refine ⟨{ s with x := x' }, o, ?_, ⟨hs.1, lx⟩, w.mono (by omega)⟩
      simp [type_sparse, type_dense, chunk_pair, e, type_full, hal, Body.vals]
    | sparse bs =>
      rw [hr.type_sparse eb]
      have hbl := hr.blocks_sparse eb
      rw [ea, eb] at hpos
      rw [eb] at hcap wb sb bb hb'
      by_cases hlt : as.length < bs.length
      · obtain ⟨x', o, e, lx, w⟩ := ss_union_chunk_spec (dbg := dbg) wa.1 wb.1 wa.2 wb.2 ha hb'
          (hpos.blocks wa.1 wb.1) hs.1 hb
          (out := out) (buf := buf) (by simp only [Body.vals] at hcap ⊢; omega)
        refine ⟨{ s with x4 := x' }, o, ?_, ⟨lx, hs.2⟩, w⟩
        simp [type_sparse, chunk_pair, e, hbl, hal, Body.vals, hlt]
      · rw [uni_comm sa sb] at hcap ⊢
        obtain ⟨x', o, e, lx, w⟩ := ss_union_chunk_spec (dbg := dbg) wb.1 wa.1 wb.2 wa.2 hb' ha
          (hpos.symm.blocks wb.1 wa.1) hs.1 hb
          (out := out) (buf := buf) (by simp only [Body.vals] at hcap ⊢; omega)
        refine ⟨{ s with x4 := x' }, o, ?_, ⟨lx, hs.2⟩, w⟩
        simp [type_sparse, chunk_pair, e, hbl, hal, Body.vals, hlt]

/-- Relative position of the data of two sequences of chunks. -/
def ChunksPos (dl : Nat) (L : List Chk) (dr : Nat) (R : List Chk) : Prop :=
  (dl = dr ∧ L = R) ∨ dl + offSum L ≤ dr ∨ dr + offSum R ≤ dl

theorem offSum_cons' (c : Chk) (cs : List Chk) : offSum (c :: cs) = c.body.off + offSum cs := by
  simp [offSum]

theorem chk_lt {a : Chk} {bs : List Chk} (wa : a.WF) (wb : ChunksWF bs)
    (h : ∀ b ∈ bs, a.id < b.id) : ∀ x ∈ a.elems, ∀ y ∈ seqElems bs, x < y := by
  intro x hx y hy
  unfold seqElems at hy
  rw [List.mem_flatMap] at hy
  obtain ⟨b, hb, hy⟩ := hy
  have h1 := wa.elems_bound x hx
  have h2 := (wb.2 b hb).elems_bound y hy
  have := h b hb
  omega

theorem decode_tail_spec {dbg : Bool} {m : Mem} (f : Nat) {it : It} {cs : List Chk} {out : Nat}
    {buf : List Nat} (h : ItOn 31 m it cs) (hf : cs.length < f)
    (hcap : out + (seqElems cs).length + 23 ≤ buf.length) :
    ∃ buf', decode_tail dbg m f it buf out = .ok (out + (seqElems cs).length, buf') ∧
      Wrote buf out (seqElems cs) 23 buf' := by
  induction cs generalizing f it out buf with
  | nil =>
    obtain ⟨f, rfl⟩ : ∃ g, f = g + 1 := ⟨f - 1, by simp at hf; omega⟩
    refine ⟨buf, ?_, Wrote.nil _ _ _⟩
    simp [decode_tail, h.has_next_nil, seqElems]
  | cons c cs ih =>
    obtain ⟨f, rfl⟩ : ∃ g, f = g + 1 := ⟨f - 1, by simp at hf; omega⟩
    have hs : seqElems (c :: cs) = c.elems ++ seqElems cs := rfl
    have hcl : c.elems.length = c.card := List.length_map _
    rw [hs, List.length_append, hcl] at hcap
    rw [hs, List.length_append, hcl]
    simp only [List.length_cons] at hf
    obtain ⟨o1, e1, w1⟩ := decode_chunk_spec (dbg := dbg) h (p := out) (out := buf) (by omega)
    have l1 := w1.length
    obtain ⟨it', n, hit, -⟩ := h.next
    obtain ⟨o2, e2, w2⟩ := ih f (out := out + c.card) (buf := o1) hit (by omega) (by omega)
    refine ⟨o2, ?_, ?_⟩
    · unfold decode_tail
      simp only [h.has_next, if_true, e1, ok_bind, n, e2, Nat.add_assoc]
    · exact Wrote.append w1 (by rw [hcl]; exact w2)

theorem pairwise_union_loop_spec {dbg : Bool} {m : Mem} (f : Nat) {il ir : It} {L R : List Chk}
    {out : Nat} {s : UScratch} {buf : List Nat} (hL : L ≠ []) (hR : R ≠ [])
    (hl : ItOn 31 m il L) (hr : ItOn 31 m ir R) (hs : s.Ok)
    (hpos : ChunksPos il.data L ir.data R) (hf : L.length + R.length < f)
    (hcap : out + (uni (seqElems L) (seqElems R)).length + 23 ≤ buf.length) :
    ∃ il' ir' L' R' W s' buf', pairwise_union_loop dbg m f il ir s buf out
        = .ok (il', ir', out + W.length, s', buf') ∧ s'.Ok ∧
      uni (seqElems L) (seqElems R) = W ++ uni (seqElems L') (seqElems R') ∧
      (L' = [] ∨ R' = []) ∧ ItOn 31 m il' L' ∧ ItOn 31 m ir' R' ∧
      L'.length ≤ L.length ∧ R'.length ≤ R.length ∧ Wrote buf out W 23 buf' := by
  induction f generalizing il ir L R out s buf with
  | zero => omega
  | succ f ih =>
    obtain ⟨a, L, rfl⟩ := List.exists_cons_of_ne_nil hL
    obtain ⟨b, R, rfl⟩ := List.exists_cons_of_ne_nil hR
    simp only [List.length_cons] at hf
    have wL := hl.wf
    have wR := hr.wf
    have sLf := wL.sorted
    have sRf := wR.sorted
    have ia := wL.head.1
    have ib := wR.head.1
    obtain ⟨il1, nl, hl1, -, -, -, -, dl1⟩ := hl.next
    obtain ⟨ir1, nr, hr1, -, -, -, -, dr1⟩ := hr.next
    have hcl : a.elems.length = a.card := List.length_map _
    have hcr : b.elems.length = b.card := List.length_map _
    simp only [pairwise_union_loop, hl.id, hr.id, ok_bind, u16_lt (show a.id < 65536 by omega),
      u16_lt (show b.id < 65536 by omega)]
    by_cases hab : a.id = b.id
    · rw [if_pos hab]
      have hu : uni (seqElems (a :: L)) (seqElems (b :: R))
          = uni a.elems b.elems ++ uni (seqElems L) (seqElems R) :=
        uni_append_both sLf sRf
          (chk_lt wL.head wR.tail (fun c hc => by have := wR.head_lt c hc; omega))
          (chk_lt wR.head wL.tail (fun c hc => by have := wL.head_lt c hc; omega))
      have hue : uni a.elems b.elems = (uni a.body.vals b.body.vals).map (a.id * 65536 + ·) := by
        unfold Chk.elems
        rw [← hab, uni_map_add _ wL.head.2.sorted wR.head.2.sorted]
      rw [hue] at hu
      rw [hu, List.length_append, List.length_map] at hcap
      rw [u32_lt (show a.id * 65536 < 4294967296 by omega)]
      have hpos1 : BodyPos il.data a.body ir.data b.body := by
        rcases hpos with ⟨h, h'⟩ | h | h
        · rw [List.cons.injEq] at h'
          exact Or.inl ⟨h, by rw [h'.1]⟩
        · rw [offSum_cons'] at h; exact Or.inr (Or.inl (by omega))
        · rw [offSum_cons'] at h; exact Or.inr (Or.inr (by omega))
      obtain ⟨s1, o1, e1, hs1, w1⟩ := union_chunks_spec (dbg := dbg) hl hr (hpos := hpos1) (s := s)
        (base := a.id * 65536) (out := out) (buf := buf) (by omega) hs (by omega)
      have l1 := w1.length
      simp only [e1, ok_bind, nl, nr]
      by_cases hend : (!il1.has_next || !ir1.has_next) = true
      · rw [if_pos hend]
        refine ⟨il1, ir1, L, R, _, s1, o1, by rw [List.length_map]; rfl, hs1, hu, ?_, hl1, hr1, by simp, by simp, w1⟩
        rw [Bool.or_eq_true] at hend
        refine hend.imp ?_ ?_
        · intro h
          cases L with
          | nil => rfl
          | cons c L => rw [hl1.has_next] at h; simp at h
        · intro h
          cases R with
          | nil => rfl
          | cons c R => rw [hr1.has_next] at h; simp at h
      · rw [if_neg hend]
        have hLne : L ≠ [] := by
          rintro rfl; simp [hl1.has_next_nil] at hend
        have hRne : R ≠ [] := by
          rintro rfl; simp [hr1.has_next_nil] at hend
        obtain ⟨il', ir', L', R', W, s', o2, e, hs', u, emp, hl', hr', gl, gr, w⟩ := ih
          (out := out + (uni a.body.vals b.body.vals).length) (s := s1) (buf := o1) hLne hRne hl1 hr1 hs1
          (by
            rw [dl1, dr1]
            rcases hpos with ⟨h, h'⟩ | h | h
            · rw [List.cons.injEq] at h'
              exact Or.inl ⟨by rw [h, h'.1], h'.2⟩
            · rw [offSum_cons'] at h; exact Or.inr (Or.inl (by omega))
            · rw [offSum_cons'] at h; exact Or.inr (Or.inr (by omega))) (by omega) (by omega)
        refine ⟨il', ir', L', R', (uni a.body.vals b.body.vals).map (a.id * 65536 + ·) ++ W, s', o2,
          ?_, hs', by rw [hu, u, List.append_assoc], emp, hl', hr', by simp; omega, by simp; omega, ?_⟩
        · rw [e, List.length_append, List.length_map, Nat.add_assoc]
        · exact Wrote.append w1 (by simpa using w)
    · rw [if_neg hab]
      by_cases hlt : a.id < b.id
      · rw [if_pos hlt]
        have hu : uni (seqElems (a :: L)) (seqElems (b :: R))
            = a.elems ++ uni (seqElems L) (seqElems (b :: R)) :=
          uni_append_left sLf sRf
            (chk_lt wL.head wR (fun c hc => Nat.lt_of_lt_of_le hlt (wR.ge_head c hc)))
        rw [hu, List.length_append, hcl] at hcap
        obtain ⟨o1, e1, w1⟩ := decode_chunk_spec (dbg := dbg) hl (p := out) (out := buf) (by omega)
        have l1 := w1.length
        simp only [e1, ok_bind, nl]
        cases L with
        | nil =>
          rw [hl1.has_next_nil]
          exact ⟨il1, ir, [], b :: R, a.elems, s, o1, by rw [hcl]; rfl, hs, hu, Or.inl rfl, hl1, hr,
            by simp, by simp, w1⟩
        | cons c L =>
          rw [hl1.has_next]
          obtain ⟨il', ir', L', R', W, s', o2, e, hs', u, emp, hl', hr', gl, gr, w⟩ := ih
            (out := out + a.card) (s := s) (buf := o1) (by simp) (by simp) hl1 hr hs
            (by
              rw [dl1]
              refine Or.inr ?_
              rcases hpos with ⟨_, h⟩ | h | h
              · rw [List.cons.injEq] at h; rw [h.1] at hlt; omega
              · rw [offSum_cons'] at h; exact Or.inl (by omega)
              · exact Or.inr (by omega)) (by simp at hf ⊢; omega) (by omega)
          refine ⟨il', ir', L', R', a.elems ++ W, s', o2, ?_, hs', by rw [hu, u, List.append_assoc],
            emp, hl', hr', by simp at gl ⊢; omega, gr, ?_⟩
          · simp only [Bool.not_true, Bool.false_eq_true, if_false, e, List.length_append, hcl,
              Nat.add_assoc]
          · exact Wrote.append w1 (by rw [hcl]; exact w)
      · rw [if_neg hlt]
        have hgt : b.id < a.id := by omega
        have hu : uni (seqElems (a :: L)) (seqElems (b :: R))
            = b.elems ++ uni (seqElems (a :: L)) (seqElems R) :=
          uni_append_right sLf sRf
            (chk_lt wR.head wL (fun c hc => Nat.lt_of_lt_of_le hgt (wL.ge_head c hc)))
        rw [hu, List.length_append, hcr] at hcap
        obtain ⟨o1, e1, w1⟩ := decode_chunk_spec (dbg := dbg) hr (p := out) (out := buf) (by omega)
        have l1 := w1.length
        simp only [e1, ok_bind, nr]
        cases R with
        | nil =>
          rw [hr1.has_next_nil]
          exact ⟨il, ir1, a :: L, [], b.elems, s, o1, by rw [hcr]; rfl, hs, hu, Or.inr rfl, hl, hr1,
            by simp, by simp, w1⟩
        | cons c R =>
          rw [hr1.has_next]
          obtain ⟨il', ir', L', R', W, s', o2, e, hs', u, emp, hl', hr', gl, gr, w⟩ := ih
            (out := out + b.card) (s := s) (buf := o1) (by simp) (by simp) hl hr1 hs
            (by
              rw [dr1]
              refine Or.inr ?_
              rcases hpos with ⟨_, h⟩ | h | h
              · rw [List.cons.injEq] at h; rw [h.1] at hgt; omega
              · exact Or.inl (by omega)
              · rw [offSum_cons'] at h; exact Or.inr (by omega)) (by simp at hf ⊢; omega) (by omega)
          refine ⟨il', ir', L', R', b.elems ++ W, s', o2, ?_, hs', by rw [hu, u, List.append_assoc],
            emp, hl', hr', gl, by simp at gr ⊢; omega, ?_⟩
          · simp only [Bool.not_true, Bool.false_eq_true, if_false, e, List.length_append, hcr,
              Nat.add_assoc]
          · exact Wrote.append w1 (by rw [hcr]; exact w)

theorem pairwise_union_spec {dbg : Bool} {m : Mem} {l r : SSeq} {L R : List Chk} {out : Nat}
    {s : UScratch} {buf : List Nat} (hl : SeqAt 31 m l L) (hr : SeqAt 31 m r R) (hs : s.Ok)
    (hpos : ChunksPos l.data L r.data R)
    (hcap : out + (uni (seqElems L) (seqElems R)).length + 23 ≤ buf.length) :
    ∃ s' buf', pairwise_union dbg m l r s buf out
        = .ok ((uni (seqElems L) (seqElems R)).length, s', buf') ∧ s'.Ok ∧
      Wrote buf out (uni (seqElems L) (seqElems R)) 23 buf' := by
  obtain ⟨il', ir', L', R', W, s', o, e, hs', u, emp, hl', hr', gl, gr, w⟩ :=
    pairwise_union_loop_spec (dbg := dbg) (l.chunks + r.chunks + 1) hl.ne hr.ne hl.begin hr.begin
      (out := out) (s := s) (buf := buf) hs hpos (by rw [hl.chunks, hr.chunks]; omega) hcap
  have emp' : seqElems L' = [] ∨ seqElems R' = [] := emp.imp (fun h => by rw [h]; rfl) (fun h => by rw [h]; rfl)
  rw [uni_of_nil emp'] at u
  have hlen := congrArg List.length u
  rw [List.length_append, List.length_append] at hlen
  have l0 := w.length
  obtain ⟨o1, e1, w1⟩ := decode_tail_spec (dbg := dbg) (l.chunks + 1) hl' (out := out + W.length)
    (buf := o) (by rw [hl.chunks]; omega) (by omega)
  have l1 := w1.length
  obtain ⟨o2, e2, w2⟩ := decode_tail_spec (dbg := dbg) (r.chunks + 1) hr'
    (out := out + W.length + (seqElems L').length) (buf := o1) (by rw [hr.chunks]; omega) (by omega)
  refine ⟨s', o2, ?_, hs', ?_⟩
  · unfold pairwise_union
    simp only [e, e1, e2, ok_bind, pure_ok]
    congr 2
    omega
  · rw [u, ← List.append_assoc]
    exact Wrote.append (Wrote.append w w1) (by simpa [Nat.add_assoc] using w2)

end Sliced
