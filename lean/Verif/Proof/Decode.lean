import Verif.Proof.Repr
/-! # decode.hpp against the representation predicates -/
namespace Sliced

theorem mapM_ok {α : Type} {L : List α} {f : α → Res Nat} {g : α → Nat}
    (h : ∀ x ∈ L, f x = .ok (g x)) : L.mapM f = .ok (L.map g) := by
  induction L with
  | nil => rfl
  | cons a L ih =>
    rw [List.mapM_cons, h a (by simp), ok_bind, ih (fun x hx => h x (by simp [hx]))]
    rfl

theorem lddqu_spec {m : Mem} {a : Nat} (h : Readable m a 16) :
    lddqu m a = .ok ((List.range 16).map (fun k => byteAt m (a + k))) := by
  unfold lddqu
  apply mapM_ok
  intro k hk
  exact rd8_byteAt (h k (List.mem_range.mp hk))

theorem cvtAdd_range (base : Nat) (g : Nat → Nat) (hg : ∀ k, g k < 256)
    (hb : base + 256 ≤ 4294967296) :
    cvtAdd base ((List.range 16).map g) = (List.range 8).map (fun k => base + g k) := by
  unfold cvtAdd
  rw [← List.map_take, List.map_map, List.take_range]
  apply List.map_congr_left
  intro k _
  have := hg k
  simp only [Function.comp]
  exact u32_lt (by omega)

theorem decode_lane_spec {m : Mem} {src base p : Nat} {out : List Nat} (h : Readable m src 16)
    (hb : base + 256 ≤ 4294967296) (hcap : p + 8 ≤ out.length) :
    ∃ out', decode_lane m src base out p = .ok out' ∧
      Wrote out p ((List.range 8).map (fun k => base + byteAt m (src + k))) 0 out' := by
  unfold decode_lane
  rw [lddqu_spec h, ok_bind, cvtAdd_range _ _ (fun k => byteAt_lt _ _) hb]
  exact wrs_of (by simpa using hcap)

/-- The bytes from `src` on are `vals`. -/
def BytesAt (m : Mem) (src : Nat) (vals : List Nat) : Prop :=
  ∀ (i v : Nat), vals[i]? = some v → rd8 m (src + i) = .ok v

theorem BytesAt.take_eq {m : Mem} {src base n : Nat} {vals : List Nat} (h : BytesAt m src vals)
    (hn : vals.length ≤ n) :
    ((List.range n).map (fun k => base + byteAt m (src + k))).take vals.length
      = vals.map (base + ·) := by
  apply List.ext_getElem?
  intro i
  by_cases hi : i < vals.length
  · rw [List.getElem?_take_of_lt hi, List.getElem?_map, List.getElem?_map,
      List.getElem?_range (by omega), List.getElem?_eq_getElem hi]
    simp only [Option.map_some]
    rw [byteAt_of_rd8 (h i _ (List.getElem?_eq_getElem hi))]
  · rw [List.getElem?_take_eq_none (by omega), List.getElem?_eq_none (by simpa using hi)]

theorem range_map_append (g : Nat → Nat) (a b : Nat) :
    (List.range a).map g ++ (List.range b).map (fun k => g (a + k)) = (List.range (a + b)).map g := by
  rw [List.range_add, List.map_append, List.map_map]; rfl

theorem decode_sparse_block_spec {m : Mem} {src base p : Nat} {vals : List Nat} {out : List Nat}
    (hv : BytesAt m src vals) (hc : vals.length ≤ 32)
    (hr : Readable m src (if vals.length ≤ 8 then 16 else 40))
    (hb : base + 256 ≤ 4294967296) (hcap : p + vals.length + 23 ≤ out.length) :
    ∃ out', decode_sparse_block m src vals.length base out p = .ok (vals.length, out') ∧
      Wrote out p (vals.map (base + ·)) 23 out' := by
  unfold decode_sparse_block
  by_cases h8 : vals.length ≤ 8
  · rw [if_pos h8] at hr
    obtain ⟨o1, e1, w1⟩ := decode_lane_spec (m := m) (src := src + 0) (p := p + 0) (out := out) hr hb
      (by omega)
    refine ⟨o1, ?_, ?_⟩
    · simp only [e1, ok_bind, if_pos h8, pure_ok]
    · rw [← hv.take_eq (base := base) h8]
      exact w1.shrink vals.length 23 (by rw [List.length_map, List.length_range]; omega) (by simpa using h8)
  · rw [if_neg h8] at hr
    obtain ⟨o1, e1, w1⟩ := decode_lane_spec (m := m) (src := src + 0) (p := p + 0) (out := out)
      (hr.shift (k := 0) (by omega)) hb (by omega)
    have l1 := w1.length
    obtain ⟨o2, e2, w2⟩ := decode_lane_spec (m := m) (src := src + 8) (p := p + 8) (out := o1)
      (hr.shift (k := 8) (by omega)) hb (by omega)
    have l2 := w2.length
    obtain ⟨o3, e3, w3⟩ := decode_lane_spec (m := m) (src := src + 16) (p := p + 16) (out := o2)
      (hr.shift (k := 16) (by omega)) hb (by omega)
    have l3 := w3.length
    obtain ⟨o4, e4, w4⟩ := decode_lane_spec (m := m) (src := src + 24) (p := p + 24) (out := o3)
      (hr.shift (k := 24) (by omega)) hb (by omega)
    refine ⟨o4, ?_, ?_⟩
    · simp only [e1, e2, e3, e4, ok_bind, if_neg h8, pure_ok]
    · rw [← hv.take_eq (base := base) hc]
      have w12 := Wrote.append (k := 0) w1 (by simpa using w2)
      have w123 := Wrote.append (k := 0) w12 (by simpa using w3)
      have w := Wrote.append (k := 0) w123 (by simpa using w4)
      have e : (((List.map (fun k => base + byteAt m (src + 0 + k)) (List.range 8) ++
          List.map (fun k => base + byteAt m (src + 8 + k)) (List.range 8)) ++
          List.map (fun k => base + byteAt m (src + 16 + k)) (List.range 8)) ++
          List.map (fun k => base + byteAt m (src + 24 + k)) (List.range 8))
          = (List.range 32).map (fun k => base + byteAt m (src + k)) := by
        have a1 := range_map_append (fun k => base + byteAt m (src + k)) 8 8
        have a2 := range_map_append (fun k => base + byteAt m (src + k)) 16 8
        have a3 := range_map_append (fun k => base + byteAt m (src + k)) 24 8
        simp only [Nat.reduceAdd, ← Nat.add_assoc] at a1 a2 a3
        rw [← a3, ← a2, ← a1]
        simp only [Nat.add_zero]
      rw [e] at w
      exact w.shrink vals.length 23 (by simp; omega) (by simpa using hc)

theorem filter_mem_bytes {vals : List Nat} {n : Nat} (hs : vals.Pairwise (· < ·))
    (hb : ∀ v ∈ vals, v < 64 * n) :
    (List.range (64 * n)).filter (fun x => decide (x ∈ vals)) = vals :=
  filter_range_mem hs hb

theorem BlkAt.readable {m : Mem} {dp : Nat} {b : Blk} (hw : b.WF) (h : BlkAt 31 m dp b)
    (hc : b.vals.length < 31) : Readable m dp (if b.vals.length ≤ 8 then 16 else 40) := by
  unfold BlkAt at h
  rw [if_pos hc] at h
  have := hw.card_pos
  apply h.2.mono
  split <;> omega

/-- Decoding one block, sparse or dense. -/
theorem decode_blk_spec {m : Mem} {dp base p : Nat} {b : Blk} {out : List Nat} (hw : b.WF)
    (h : BlkAt 31 m dp b) (hb : base + 256 ≤ 4294967296)
    (hcap : p + b.vals.length + 23 ≤ out.length) :
    ∃ out', (if b.vals.length < 31 then decode_sparse_block m dp b.vals.length base out p
        else decode_bitmap (memWords m dp) 4 base out p) = .ok (b.vals.length, out') ∧
      Wrote out p (b.vals.map (base + ·)) 23 out' := by
  by_cases hc : b.vals.length < 31
  · rw [if_pos hc]
    have hr := h.readable hw hc
    unfold BlkAt at h
    rw [if_pos hc] at h
    exact decode_sparse_block_spec h.1 (by omega) hr hb hcap
  · rw [if_neg hc]
    unfold BlkAt at h
    rw [if_neg hc] at h
    have hf := filter_mem_bytes (n := 4) hw.2.2.1 hw.2.2.2
    obtain ⟨out', e, w⟩ := decode_bitmap_spec (p := p) (out := out) h (by omega)
      (by rw [hf]; omega) (by omega)
    rw [hf] at e w
    exact ⟨out', e, w.mono (by omega)⟩

theorem map_elems (base : Nat) (b : Blk) :
    b.vals.map ((base + b.id * 256) + ·) = b.elems.map (base + ·) := by
  simp only [Blk.elems, List.map_map]
  apply List.map_congr_left
  intro v _
  simp only [Function.comp]; omega

theorem decode_sparse_chunk_loop_spec {m : Mem} {base end_ : Nat} {bs : List Blk} (f : Nat)
    {hp dp p : Nat} {out : List Nat} (hw : BlocksWF bs) (h : BlocksAt 31 m hp dp bs)
    (he : hp + 2 * bs.length = end_) (hf : bs.length < f) (hb : base + 65536 ≤ 4294967296)
    (hcap : p + (blkElems bs).length + 23 ≤ out.length) :
    ∃ out', decode_sparse_chunk_loop m base end_ f hp dp out p
        = .ok (p + (blkElems bs).length, out') ∧
      Wrote out p ((blkElems bs).map (base + ·)) 23 out' := by
  induction bs generalizing f hp dp p out with
  | nil =>
    obtain ⟨f, rfl⟩ : ∃ g, f = g + 1 := ⟨f - 1, by simp at hf; omega⟩
    refine ⟨out, ?_, by simpa using Wrote.nil _ _ _⟩
    simp at he
    simp [decode_sparse_chunk_loop, he]
  | cons b bs ih =>
    obtain ⟨f, rfl⟩ : ∃ g, f = g + 1 := ⟨f - 1, by simp at hf; omega⟩
    simp only [List.length_cons] at he hf
    obtain ⟨h1, h2, h3, h4⟩ := h
    have hbw := hw.head
    have hc1 := hbw.card_pos
    have hid := hbw.1
    have hne : ¬ hp = end_ := by omega
    rw [blkElems_cons, List.length_append, Blk.elems_length] at hcap
    obtain ⟨o1, e1, w1⟩ := decode_blk_spec (p := p) (out := out) (base := base + b.id * 256) hbw h3
      (by omega) (by omega)
    have hl := w1.length
    obtain ⟨o2, e2, w2⟩ := ih f (p := p + b.vals.length) (out := o1) hw.tail h4 (by omega) (by omega)
      (by omega)
    have hu : u32 (base + b.id * 256) = base + b.id * 256 := u32_lt (by omega)
    have hcc : b.vals.length - 1 + 1 = b.vals.length := by omega
    refine ⟨o2, ?_, ?_⟩
    · unfold decode_sparse_chunk_loop
      simp only [if_neg hne, h1, h2, ok_bind, hu, hcc]
      unfold Blk.size bytes_by_cardinality at e2
      by_cases hc : b.vals.length < 31
      · rw [if_pos hc] at e1 e2 ⊢
        rw [e1]; simp only [ok_bind]; rw [e2]
        simp [Nat.add_assoc]
      · rw [if_neg hc] at e1 e2 ⊢
        rw [e1]; simp only [ok_bind]; rw [e2]
        simp [Nat.add_assoc]
    · rw [blkElems_cons, List.map_append, ← map_elems]
      exact Wrote.append w1 (by simpa using w2)

theorem decode_sparse_chunk_spec {dbg : Bool} {m : Mem} {base : Nat} {bs : List Blk}
    {dp p : Nat} {out : List Nat} (hne : bs ≠ []) (hw : BlocksWF bs)
    (h : BlocksAt 31 m dp (dp + 2 * bs.length) bs) (hb : base + 65536 ≤ 4294967296)
    (hcap : p + (blkElems bs).length + 23 ≤ out.length) :
    ∃ out', decode_sparse_chunk dbg m dp bs.length base out p
        = .ok ((blkElems bs).length, out') ∧
      Wrote out p ((blkElems bs).map (base + ·)) 23 out' := by
  have h1 := List.length_pos_iff.mpr hne
  have h2 := hw.length_le
  obtain ⟨out', e, w⟩ := decode_sparse_chunk_loop_spec (end_ := dp + bs.length * 2) (bs.length + 1)
    (p := p) (out := out) hw h (by omega) (by omega) hb hcap
  refine ⟨out', ?_, w⟩
  unfold decode_sparse_chunk
  rw [cassert_of (by simp; omega)]
  simp only [ok_bind]
  rw [show dp + bs.length * 2 = dp + 2 * bs.length by omega] at e ⊢
  rw [e]
  simp

theorem decode_full_chunk_spec {base p : Nat} {out : List Nat} (hb : base + 65536 ≤ 4294967296)
    (hcap : p + 65536 ≤ out.length) :
    ∃ out', decode_full_chunk base out p = .ok (65536, out') ∧
      Wrote out p ((List.range 65536).map (base + ·)) 0 out' := by
  unfold decode_full_chunk
  have he : (List.range chunk_size).map (fun i => u32 (i + base))
      = (List.range 65536).map (base + ·) := by
    apply List.map_congr_left
    intro i hi
    have : i < 65536 := List.mem_range.mp hi
    rw [u32_lt (by omega)]; omega
  rw [he]
  obtain ⟨out', e, w⟩ := wrs_of (vs := (List.range 65536).map (base + ·)) (out := out) (p := p)
    (by rw [List.length_map, List.length_range]; exact hcap)
  rw [e]
  exact ⟨out', rfl, w⟩

theorem dense_filter {vs : List Nat} (h : (Body.dense vs).WF) :
    (List.range (64 * 1024)).filter (fun x => decide (x ∈ vs)) = vs :=
  filter_mem_bytes (n := 1024) h.2.1 h.2.2

theorem decode_dense_spec {m : Mem} {dp base p : Nat} {vs out : List Nat} (hw : (Body.dense vs).WF)
    (h : BitsAt (memWords m dp) 1024 (fun x => decide (x ∈ vs))) (hb : base + 65536 ≤ 4294967296)
    (hcap : p + vs.length ≤ out.length) :
    ∃ out', decode_bitmap (memWords m dp) 1024 base out p = .ok (vs.length, out') ∧
      Wrote out p (vs.map (base + ·)) 0 out' := by
  have hf := dense_filter hw
  obtain ⟨out', e, w⟩ := decode_bitmap_spec (p := p) (out := out) h (by omega)
    (by rw [hf]; exact hcap) (by omega)
  rw [hf] at e w
  exact ⟨out', e, w⟩

/-- slots after the values that `decode_chunk` may overwrite -/
def Body.slack : Body → Nat
  | .sparse _ => 23
  | _ => 0

theorem Body.slack_le (b : Body) : b.slack ≤ 23 := by cases b <;> simp [Body.slack]

theorem decode_chunk_spec' {dbg : Bool} {m : Mem} {it : It} {c : Chk} {cs : List Chk} {p : Nat}
    {out : List Nat} (h : ItOn 31 m it (c :: cs)) (hcap : p + c.card + c.body.slack ≤ out.length) :
    ∃ out', decode_chunk dbg m it out p = .ok (c.card, out') ∧
      Wrote out p c.elems c.body.slack out' := by
  have hw := h.wf.head
  have hid := hw.1
  have hbody : BodyAt _ _ _ _ := h.at_.2.1
  have hu : u32 (c.id * 65536) = c.id * 65536 := u32_lt (by omega)
  unfold decode_chunk
  simp only [h.id, ok_bind, hu]
  unfold Chk.card at hcap
  unfold Chk.card Chk.elems
  cases hb : c.body with
  | full =>
    rw [h.type_full hb]
    have hl : (Body.full).vals.length = 65536 := List.length_range
    rw [hb, hl] at hcap
    obtain ⟨out', e, w⟩ := decode_full_chunk_spec (base := c.id * 65536) (p := p) (out := out)
      (by omega) (by omega)
    refine ⟨out', ?_, w.mono (by omega)⟩
    rw [hl]
    simpa [type_sparse, type_dense] using e
  | dense vs =>
    rw [h.type_dense hb]
    rw [hb] at hcap hbody
    have hbw := hw.2
    rw [hb] at hbw
    obtain ⟨out', e, w⟩ := decode_dense_spec (base := c.id * 65536) (p := p) (out := out) hbw hbody
      (by omega) (by simp only [Body.vals] at hcap; omega)
    refine ⟨out', ?_, w.mono (by omega)⟩
    simpa [type_sparse, Body.vals] using e
  | sparse bs =>
    rw [h.type_sparse hb]
    have hbl := h.blocks_sparse hb
    rw [hb] at hcap hbody
    have hbw := hw.2
    rw [hb] at hbw
    obtain ⟨out', e, w⟩ := decode_sparse_chunk_spec (dbg := dbg) (base := c.id * 65536) (p := p)
      (out := out) hbw.1 hbw.2 hbody (by omega) hcap
    refine ⟨out', ?_, w⟩
    simpa [hbl, Body.vals] using e

theorem decode_chunk_spec {dbg : Bool} {m : Mem} {it : It} {c : Chk} {cs : List Chk} {p : Nat}
    {out : List Nat} (h : ItOn 31 m it (c :: cs)) (hcap : p + c.card + 23 ≤ out.length) :
    ∃ out', decode_chunk dbg m it out p = .ok (c.card, out') ∧ Wrote out p c.elems 23 out' := by
  have hs := c.body.slack_le
  obtain ⟨o, e, w⟩ := decode_chunk_spec' (dbg := dbg) h (p := p) (out := out) (by omega)
  exact ⟨o, e, w.mono hs⟩

theorem decode_loop_spec {dbg : Bool} {m : Mem} {cs : List Chk} {it : It} {p : Nat}
    {out : List Nat} (h : ItOn 31 m it cs) (hcap : p + (seqElems cs).length + 23 ≤ out.length) :
    ∃ out', decode_loop dbg m cs.length it out p = .ok (p + (seqElems cs).length, out') ∧
      Wrote out p (seqElems cs) 23 out' := by
  induction cs generalizing it p out with
  | nil => exact ⟨out, rfl, Wrote.nil _ _ _⟩
  | cons c cs ih =>
    rw [seqElems_cons, List.length_append, Chk.elems_length] at hcap
    obtain ⟨o1, e1, w1⟩ := decode_chunk_spec (dbg := dbg) (p := p) (out := out) h (by omega)
    obtain ⟨it', e2, h2, -⟩ := h.next
    have hl := w1.length
    obtain ⟨o2, e3, w2⟩ := ih (p := p + c.card) (out := o1) h2 (by omega)
    refine ⟨o2, ?_, ?_⟩
    · simp only [List.length_cons, decode_loop, e1, e2, ok_bind, e3, seqElems_cons,
        List.length_append, Chk.elems_length, Nat.add_assoc]
    · rw [seqElems_cons]
      exact Wrote.append w1 (by simpa using w2)

theorem SSeq.decode_spec {dbg : Bool} {m : Mem} {s : SSeq} {cs : List Chk} {p : Nat}
    {out : List Nat} (h : SeqAt 31 m s cs) (hcap : p + (seqElems cs).length + 23 ≤ out.length) :
    ∃ out', s.decode dbg m out p = .ok ((seqElems cs).length, out') ∧
      Wrote out p (seqElems cs) 23 out' := by
  obtain ⟨out', e, w⟩ := decode_loop_spec (dbg := dbg) h.begin hcap
  refine ⟨out', ?_, w⟩
  unfold SSeq.decode
  rw [h.chunks, e]
  simp

end Sliced
