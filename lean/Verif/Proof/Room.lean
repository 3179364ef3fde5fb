import Verif.Proof.Decode
import Verif.Proof.Uncompress
/-! # The exact size of output buffers -/
namespace Sliced

theorem wr_err {out : List Nat} {p v : Nat} (h : out.length ≤ p) : wr out p v = .error .ub := by
  unfold wr
  rw [if_neg (by omega)]

theorem wrs_err {vs : List Nat} {out : List Nat} {p : Nat} (hp : p ≤ out.length)
    (h : out.length < p + vs.length) : wrs out p vs = .error .ub := by
  induction vs generalizing out p with
  | nil => simp at h; omega
  | cons v vs ih =>
    rw [List.length_cons] at h
    unfold wrs
    by_cases hp' : p < out.length
    · rw [wr_of hp', ok_bind]
      exact ih (by rw [List.length_set]; omega) (by rw [List.length_set]; omega)
    · rw [wr_err (by omega)]; rfl

theorem scan_word_err (f : Nat) {w base p : Nat} {out : List Nat}
    (hw : w < 18446744073709551616) (hf : (bitsOf w).length < f) (hp : p ≤ out.length)
    (hcap : out.length < p + (bitsOf w).length) : scan_word f w base out p = .error .ub := by
  induction f generalizing w p out with
  | zero => omega
  | succ f ih =>
    unfold scan_word
    by_cases h0 : w = 0
    · subst h0
      rw [bitsOf_zero, List.length_nil] at hcap
      omega
    · obtain ⟨r, hr⟩ := ctz_exists h0 hw
      have hc := bitsOf_clear hw hr
      rw [hc] at hf hcap
      simp only [List.length_cons] at hf hcap
      simp only [h0, if_false, hr, ok_bind]
      by_cases hp' : p < out.length
      · rw [wr_of hp', ok_bind]
        exact ih (clear_lowest_lt hw _) (by omega) (by rw [List.length_set]; omega)
          (by rw [List.length_set]; omega)
      · rw [wr_err (by omega)]; rfl

theorem decode_bitmap_loop_err {W : Words} {P : Nat → Bool} (n i : Nat) {b p : Nat}
    {out : List Nat} (hW : BitsAt W (i + n) P) (hb : b + 64 * (i + n) ≤ 4294967296)
    (hp : p ≤ out.length)
    (hcap : out.length < p + ((List.range' (64 * i) (64 * n)).filter P).length) :
    decode_bitmap_loop W n i (u32 (b + 64 * i)) out p = .error .ub := by
  induction n generalizing i p out with
  | zero => simp at hcap; omega
  | succ n ih =>
    obtain ⟨w, e1, hw, hbits⟩ := hW i (by omega)
    have hbase : u32 (b + 64 * i) = b + 64 * i := u32_lt (by omega)
    have hr := bitsOf_range' hbits b
    have hrl : (bitsOf w).length = ((List.range' (64 * i) 64).filter P).length := by
      have := congrArg List.length hr; simpa using this
    rw [range'_split] at hcap
    rw [List.filter_append, List.length_append] at hcap
    have hle := bitsOf_length_le w
    simp only [decode_bitmap_loop, e1, ok_bind, hbase]
    by_cases hfit : p + (bitsOf w).length ≤ out.length
    · obtain ⟨out1, e2, w1⟩ := scan_word_spec 65 (w := w) (base := b + 64 * i) (p := p) (out := out)
        hw (by omega) (by omega) hfit
      have hl1 := w1.length
      rw [e2]
      simp only [ok_bind]
      rw [show b + 64 * i + 64 = b + 64 * (i + 1) by omega]
      exact ih (i + 1) (p := p + (bitsOf w).length) (out := out1)
        (by rw [show i + 1 + n = i + (n + 1) by omega]; exact hW) (by omega) (by omega) (by omega)
    · rw [scan_word_err 65 hw (by omega) hp (by omega)]; rfl

theorem decode_bitmap_err {W : Words} {P : Nat → Bool} {n b p : Nat} {out : List Nat}
    (hW : BitsAt W n P) (hb : b + 64 * n ≤ 4294967296) (hn : 0 < n) (hp : p ≤ out.length)
    (hcap : out.length < p + ((List.range (64 * n)).filter P).length) :
    decode_bitmap W n b out p = .error .ub := by
  rw [List.range_eq_range'] at hcap
  have e := decode_bitmap_loop_err (W := W) (P := P) n 0 (b := b) (p := p) (out := out)
    (by simpa using hW) (by simpa using hb) hp (by simpa using hcap)
  rw [Nat.mul_zero, Nat.add_zero, u32_lt (by omega)] at e
  unfold decode_bitmap
  rw [e]; rfl

/-! ## decode -/

/-- slots written for a block of `n` values -/
def room (n : Nat) : Nat := if n < 31 then if n ≤ 8 then 8 else 32 else n

theorem room_ge (n : Nat) : n ≤ room n := by
  unfold room; split <;> (try split) <;> omega

theorem room_le (n : Nat) : room n ≤ n + 23 ∨ n = 0 := by
  unfold room; split <;> (try split) <;> omega

theorem decode_lane_err {m : Mem} {src base p : Nat} {out : List Nat} (h : Readable m src 16)
    (hb : base + 256 ≤ 4294967296) (hp : p ≤ out.length) (hcap : out.length < p + 8) :
    decode_lane m src base out p = .error .ub := by
  unfold decode_lane
  rw [lddqu_spec h, ok_bind, cvtAdd_range _ _ (fun k => byteAt_lt _ _) hb]
  exact wrs_err hp (by simpa using hcap)

theorem decode_sparse_block_room {m : Mem} {src base p : Nat} {vals : List Nat} {out : List Nat}
    (hv : BytesAt m src vals) (hc : vals.length < 31)
    (hr : Readable m src (if vals.length ≤ 8 then 16 else 40))
    (hb : base + 256 ≤ 4294967296) :
    (p + room vals.length ≤ out.length →
      ∃ out', decode_sparse_block m src vals.length base out p = .ok (vals.length, out') ∧
        Wrote out p (vals.map (base + ·)) (room vals.length - vals.length) out') ∧
    (p ≤ out.length → out.length < p + room vals.length →
      decode_sparse_block m src vals.length base out p = .error .ub) := by
  unfold decode_sparse_block room
  rw [if_pos hc]
  by_cases h8 : vals.length ≤ 8
  · rw [if_pos h8] at hr
    simp only [if_pos h8]
    constructor
    · intro hcap
      obtain ⟨o1, e1, w1⟩ := decode_lane_spec (m := m) (src := src + 0) (p := p + 0) (out := out) hr hb
        (by omega)
      refine ⟨o1, ?_, ?_⟩
      · simp only [e1, ok_bind, pure_ok]
      · rw [← hv.take_eq (base := base) h8]
        exact w1.shrink vals.length _ (by rw [List.length_map, List.length_range]; omega)
          (by simpa using h8)
    · intro hp hcap
      rw [decode_lane_err (src := src + 0) (p := p + 0) hr hb (by omega) (by omega)]; rfl
  · rw [if_neg h8] at hr
    simp only [if_neg h8]
    constructor
    · intro hcap
      obtain ⟨o1, e1, w1⟩ := decode_lane_spec (m := m) (src := src + 0) (p := p + 0) (out := out)
        (hr.shift (k := 0) (by omega)) hb (by omega)
      have l1 := w1.length
      obtain ⟨o2, e2, w2⟩ := decode_lane_spec (m := m) (src := src + 8) (p := p + 8) (out := o1)
        (hr.shift (k := 8) (by omega)) hb (by omega)
      have l2 := w2.length
      obtain ⟨o3, e3, w3⟩ := decode_lane_spec (m := m) (src := src + 16) (p := p + 16) (out := o2)
        (hr.shift (k := 16) (by omega)) hb (by omega)
      have l3 := w3.length
      obtain ⟨o4, e4, w4⟩ := decode_lane_spec (m := m) (src := src + 24) (p := p + 24) (out := o3)
        (hr.shift (k := 24) (by omega)) hb (by omega)
      refine ⟨o4, ?_, ?_⟩
      · simp only [e1, e2, e3, e4, ok_bind, pure_ok]
      · rw [← hv.take_eq (base := base) (show vals.length ≤ 32 by omega)]
        have w12 := Wrote.append (k := 0) w1 (by simpa using w2)
        have w123 := Wrote.append (k := 0) w12 (by simpa using w3)
        have w := Wrote.append (k := 0) w123 (by simpa using w4)
        have e : (((List.map (fun k => base + byteAt m (src + 0 + k)) (List.range 8) ++
            List.map (fun k => base + byteAt m (src + 8 + k)) (List.range 8)) ++
            List.map (fun k => base + byteAt m (src + 16 + k)) (List.range 8)) ++
            List.map (fun k => base + byteAt m (src + 24 + k)) (List.range 8))
            = (List.range 32).map (fun k => base + byteAt m (src + k)) := by
          have a1 := range_map_append (fun k => base + byteAt m (src + k)) 8 8
          have a2 := range_map_append (fun k => base + byteAt m (src + k)) 16 8
          have a3 := range_map_append (fun k => base + byteAt m (src + k)) 24 8
          simp only [Nat.reduceAdd, ← Nat.add_assoc] at a1 a2 a3
          rw [← a3, ← a2, ← a1]
          simp only [Nat.add_zero]
        rw [e] at w
        exact w.shrink vals.length _ (by simp; omega) (by simp; omega)
    · intro hp hcap
      by_cases c1 : p + 0 + 8 ≤ out.length
      · obtain ⟨o1, e1, w1⟩ := decode_lane_spec (m := m) (src := src + 0) (p := p + 0) (out := out)
          (hr.shift (k := 0) (by omega)) hb c1
        have l1 := w1.length
        rw [e1, ok_bind]
        by_cases c2 : p + 8 + 8 ≤ out.length
        · obtain ⟨o2, e2, w2⟩ := decode_lane_spec (m := m) (src := src + 8) (p := p + 8) (out := o1)
            (hr.shift (k := 8) (by omega)) hb (by omega)
          have l2 := w2.length
          rw [e2, ok_bind]
          by_cases c3 : p + 16 + 8 ≤ out.length
          · obtain ⟨o3, e3, w3⟩ := decode_lane_spec (m := m) (src := src + 16) (p := p + 16)
              (out := o2) (hr.shift (k := 16) (by omega)) hb (by omega)
            have l3 := w3.length
            rw [e3, ok_bind, decode_lane_err (src := src + 24) (p := p + 24)
              (hr.shift (k := 24) (by omega)) hb (by omega) (by omega)]; rfl
          · rw [decode_lane_err (src := src + 16) (p := p + 16)
              (hr.shift (k := 16) (by omega)) hb (by omega) (by omega)]; rfl
        · rw [decode_lane_err (src := src + 8) (p := p + 8)
            (hr.shift (k := 8) (by omega)) hb (by omega) (by omega)]; rfl
      · rw [decode_lane_err (src := src + 0) (p := p + 0)
          (hr.shift (k := 0) (by omega)) hb (by omega) (by omega)]; rfl

theorem decode_blk_room {m : Mem} {dp base p : Nat} {b : Blk} {out : List Nat} (hw : b.WF)
    (h : BlkAt 31 m dp b) (hb : base + 256 ≤ 4294967296) :
    (p + room b.vals.length ≤ out.length →
      ∃ out', (if b.vals.length < 31 then decode_sparse_block m dp b.vals.length base out p
          else decode_bitmap (memWords m dp) 4 base out p) = .ok (b.vals.length, out') ∧
        Wrote out p (b.vals.map (base + ·)) 23 out') ∧
    (p ≤ out.length → out.length < p + room b.vals.length →
      (if b.vals.length < 31 then decode_sparse_block m dp b.vals.length base out p
        else decode_bitmap (memWords m dp) 4 base out p) = .error .ub) := by
  by_cases hc : b.vals.length < 31
  · simp only [if_pos hc]
    have hr := h.readable hw hc
    unfold BlkAt at h
    rw [if_pos hc] at h
    have hk := decode_sparse_block_room (p := p) (out := out) h.1 hc hr hb
    refine ⟨fun hcap => ?_, hk.2⟩
    obtain ⟨o, e, w⟩ := hk.1 hcap
    have := hw.card_pos
    exact ⟨o, e, w.mono (by have := room_le b.vals.length; omega)⟩
  · simp only [if_neg hc]
    have hrm : room b.vals.length = b.vals.length := by unfold room; rw [if_neg hc]
    rw [hrm]
    unfold BlkAt at h
    rw [if_neg hc] at h
    have hf := filter_mem_bytes (n := 4) hw.2.2.1 hw.2.2.2
    constructor
    · intro hcap
      obtain ⟨out', e, w⟩ := decode_bitmap_spec (p := p) (out := out) h (by omega)
        (by rw [hf]; omega) (by omega)
      rw [hf] at e w
      exact ⟨out', e, w.mono (by omega)⟩
    · intro hp hcap
      exact decode_bitmap_err h (by omega) (by omega) hp (by rw [hf]; exact hcap)

/-- slots needed for blocks -/
def blocksNeed : List Blk → Nat
  | [] => 0
  | b :: bs => max (room b.vals.length) (b.vals.length + blocksNeed bs)

theorem blocksNeed_ge (bs : List Blk) : (blkElems bs).length ≤ blocksNeed bs := by
  induction bs with
  | nil => exact Nat.zero_le _
  | cons b bs ih =>
    rw [blkElems_cons, List.length_append, Blk.elems_length]
    unfold blocksNeed
    omega

theorem decode_sparse_chunk_loop_room {m : Mem} {base end_ : Nat} {bs : List Blk} (f : Nat)
    {hp dp p : Nat} {out : List Nat} (hw : BlocksWF bs) (h : BlocksAt 31 m hp dp bs)
    (he : hp + 2 * bs.length = end_) (hf : bs.length < f) (hb : base + 65536 ≤ 4294967296)
    (hpo : p ≤ out.length) :
    (p + blocksNeed bs ≤ out.length →
      ∃ out', decode_sparse_chunk_loop m base end_ f hp dp out p
          = .ok (p + (blkElems bs).length, out') ∧
        Wrote out p ((blkElems bs).map (base + ·)) 23 out') ∧
    (out.length < p + blocksNeed bs →
      decode_sparse_chunk_loop m base end_ f hp dp out p = .error .ub) := by
  induction bs generalizing f hp dp p out with
  | nil =>
    obtain ⟨f, rfl⟩ : ∃ g, f = g + 1 := ⟨f - 1, by simp at hf; omega⟩
    refine ⟨fun _ => ⟨out, ?_, by simpa using Wrote.nil _ _ _⟩, fun h => ?_⟩
    · simp at he
      simp [decode_sparse_chunk_loop, he]
    · simp only [blocksNeed] at h; omega
  | cons b bs ih =>
    obtain ⟨f, rfl⟩ : ∃ g, f = g + 1 := ⟨f - 1, by simp at hf; omega⟩
    simp only [List.length_cons] at he hf
    obtain ⟨h1, h2, h3, h4⟩ := h
    have hbw := hw.head
    have hc1 := hbw.card_pos
    have hid := hbw.1
    have hne : ¬ hp = end_ := by omega
    have hge := room_ge b.vals.length
    obtain ⟨k1, k2⟩ := decode_blk_room (p := p) (out := out) (base := base + b.id * 256) hbw h3
      (by omega)
    have hu : u32 (base + b.id * 256) = base + b.id * 256 := u32_lt (by omega)
    have hcc : b.vals.length - 1 + 1 = b.vals.length := by omega
    have step : ∀ o1, (if b.vals.length < 31 then
          decode_sparse_block m dp b.vals.length (base + b.id * 256) out p
        else decode_bitmap (memWords m dp) 4 (base + b.id * 256) out p) = .ok (b.vals.length, o1) →
        decode_sparse_chunk_loop m base end_ (f + 1) hp dp out p
          = decode_sparse_chunk_loop m base end_ f (hp + 2) (dp + b.size) o1 (p + b.vals.length) := by
      intro o1 e1
      conv => lhs; unfold decode_sparse_chunk_loop
      simp only [if_neg hne, h1, h2, ok_bind, hu, hcc]
      unfold Blk.size bytes_by_cardinality
      by_cases hc : b.vals.length < 31
      · rw [if_pos hc] at e1 ⊢
        rw [e1]; simp only [ok_bind, if_pos hc]
      · rw [if_neg hc] at e1 ⊢
        rw [e1]; simp only [ok_bind, if_neg hc]
    unfold blocksNeed
    constructor
    · intro hcap
      obtain ⟨o1, e1, w1⟩ := k1 (by omega)
      have hl := w1.length
      obtain ⟨o2, e2, w2⟩ := (ih f (p := p + b.vals.length) (out := o1) hw.tail h4 (by omega)
        (by omega) (by omega)).1 (by omega)
      refine ⟨o2, ?_, ?_⟩
      · rw [step o1 e1, e2, blkElems_cons, List.length_append, Blk.elems_length, Nat.add_assoc]
      · rw [blkElems_cons, List.map_append, ← map_elems]
        exact Wrote.append w1 (by simpa using w2)
    · intro hcap
      by_cases hfit : p + room b.vals.length ≤ out.length
      · obtain ⟨o1, e1, w1⟩ := k1 hfit
        have hl := w1.length
        rw [step o1 e1]
        exact (ih f (p := p + b.vals.length) (out := o1) hw.tail h4 (by omega)
          (by omega) (by omega)).2 (by omega)
      · have e := k2 hpo (by omega)
        unfold decode_sparse_chunk_loop
        simp only [if_neg hne, h1, h2, ok_bind, hu, hcc]
        by_cases hc : b.vals.length < 31
        · rw [if_pos hc] at e ⊢
          rw [e]; rfl
        · rw [if_neg hc] at e ⊢
          rw [show block_size_in_64bit_words = 4 from rfl, e]; rfl

theorem decode_sparse_chunk_room {dbg : Bool} {m : Mem} {base : Nat} {bs : List Blk}
    {dp p : Nat} {out : List Nat} (hne : bs ≠ []) (hw : BlocksWF bs)
    (h : BlocksAt 31 m dp (dp + 2 * bs.length) bs) (hb : base + 65536 ≤ 4294967296)
    (hpo : p ≤ out.length) :
    (p + blocksNeed bs ≤ out.length →
      ∃ out', decode_sparse_chunk dbg m dp bs.length base out p
          = .ok ((blkElems bs).length, out') ∧
        Wrote out p ((blkElems bs).map (base + ·)) 23 out') ∧
    (out.length < p + blocksNeed bs →
      decode_sparse_chunk dbg m dp bs.length base out p = .error .ub) := by
  have h1 := List.length_pos_iff.mpr hne
  have h2 := hw.length_le
  obtain ⟨k1, k2⟩ := decode_sparse_chunk_loop_room (end_ := dp + bs.length * 2) (bs.length + 1)
    (p := p) (out := out) hw h (by omega) (by omega) hb hpo
  unfold decode_sparse_chunk
  rw [cassert_of (by simp; omega)]
  simp only [ok_bind]
  rw [show dp + bs.length * 2 = dp + 2 * bs.length by omega] at k1 k2 ⊢
  constructor
  · intro hcap
    obtain ⟨out', e, w⟩ := k1 hcap
    refine ⟨out', ?_, w⟩
    rw [e]
    simp
  · intro hcap
    rw [k2 hcap]; rfl

/-- slots needed for a chunk -/
def Body.need : Body → Nat
  | .sparse bs => blocksNeed bs
  | b => b.vals.length

theorem Body.need_ge (b : Body) : b.vals.length ≤ b.need := by
  cases b with
  | sparse bs => exact blocksNeed_ge bs
  | _ => exact Nat.le_refl _

theorem decode_chunk_room {dbg : Bool} {m : Mem} {it : It} {c : Chk} {cs : List Chk} {p : Nat}
    {out : List Nat} (h : ItOn 31 m it (c :: cs)) (hpo : p ≤ out.length) :
    (p + c.body.need ≤ out.length →
      ∃ out', decode_chunk dbg m it out p = .ok (c.card, out') ∧ Wrote out p c.elems 23 out') ∧
    (out.length < p + c.body.need → decode_chunk dbg m it out p = .error .ub) := by
  have hw := h.wf.head
  have hid := hw.1
  have hbody : BodyAt _ _ _ _ := h.at_.2.1
  have hu : u32 (c.id * 65536) = c.id * 65536 := u32_lt (by omega)
  have hdec : decode_chunk dbg m it out p = (do
      let t ← it.type m
      if t = type_sparse then do
        let blocks ← it.blocks m
        decode_sparse_chunk dbg m it.data blocks (c.id * 65536) out p
      else if t = type_dense then
        decode_bitmap (memWords m it.data) chunk_size_in_64bit_words (c.id * 65536) out p
      else if t = type_full then decode_full_chunk (c.id * 65536) out p
      else unreachable dbg) := by
    unfold decode_chunk
    simp only [h.id, ok_bind, hu]
  cases hb : c.body with
  | full =>
    have hl : (Body.full).vals.length = 65536 := List.length_range
    simp only [Body.need]
    rw [hl]
    constructor
    · intro hcap
      obtain ⟨o, e, w⟩ := decode_chunk_spec' (dbg := dbg) h (p := p) (out := out) (by
        unfold Chk.card; rw [hb, hl]; exact hcap)
      exact ⟨o, e, w.mono c.body.slack_le⟩
    · intro hcap
      rw [hdec, h.type_full hb]
      have : decode_full_chunk (c.id * 65536) out p = .error .ub := by
        unfold decode_full_chunk
        rw [wrs_err hpo (by rw [List.length_map, List.length_range]; exact hcap)]; rfl
      simpa [type_sparse, type_dense] using this
  | dense vs =>
    simp only [Body.need]
    constructor
    · intro hcap
      obtain ⟨o, e, w⟩ := decode_chunk_spec' (dbg := dbg) h (p := p) (out := out) (by
        unfold Chk.card; rw [hb]; exact hcap)
      exact ⟨o, e, w.mono c.body.slack_le⟩
    · intro hcap
      rw [hdec, h.type_dense hb]
      rw [hb] at hbody
      replace hbody : BitsAt (memWords m it.data) 1024 (fun x => decide (x ∈ vs)) := hbody
      have hbw := hw.2
      rw [hb] at hbw
      have : decode_bitmap (memWords m it.data) 1024 (c.id * 65536) out p = .error .ub :=
        decode_bitmap_err hbody (by omega) (by omega) hpo (by rw [dense_filter hbw]; exact hcap)
      simpa [type_sparse] using this
  | sparse bs =>
    have hbl := h.blocks_sparse hb
    rw [hb] at hbody
    have hbw := hw.2
    rw [hb] at hbw
    obtain ⟨k1, k2⟩ := decode_sparse_chunk_room (dbg := dbg) (base := c.id * 65536) (p := p)
      (out := out) hbw.1 hbw.2 hbody (by omega) hpo
    simp only [Body.need]
    rw [hdec, h.type_sparse hb]
    unfold Chk.card Chk.elems
    rw [hb]
    constructor
    · intro hcap
      obtain ⟨o, e, w⟩ := k1 hcap
      refine ⟨o, ?_, w⟩
      simpa [hbl, Body.vals] using e
    · intro hcap
      simpa [hbl] using k2 hcap

/-- slots needed for a sequence -/
def chunksNeed : List Chk → Nat
  | [] => 0
  | c :: cs => max c.body.need (c.card + chunksNeed cs)

theorem decode_loop_room {dbg : Bool} {m : Mem} {cs : List Chk} {it : It} {p : Nat}
    {out : List Nat} (h : ItOn 31 m it cs) (hpo : p ≤ out.length) :
    (p + chunksNeed cs ≤ out.length →
      ∃ out', decode_loop dbg m cs.length it out p = .ok (p + (seqElems cs).length, out') ∧
        Wrote out p (seqElems cs) 23 out') ∧
    (out.length < p + chunksNeed cs → decode_loop dbg m cs.length it out p = .error .ub) := by
  induction cs generalizing it p out with
  | nil =>
    refine ⟨fun _ => ⟨out, rfl, Wrote.nil _ _ _⟩, fun h => ?_⟩
    simp only [chunksNeed] at h; omega
  | cons c cs ih =>
    obtain ⟨k1, k2⟩ := decode_chunk_room (dbg := dbg) (p := p) (out := out) h hpo
    obtain ⟨it', e2, h2, -⟩ := h.next
    have hge : c.card ≤ c.body.need := c.body.need_ge
    unfold chunksNeed
    constructor
    · intro hcap
      obtain ⟨o1, e1, w1⟩ := k1 (by omega)
      have hl := w1.length
      obtain ⟨o2, e3, w2⟩ := (ih (p := p + c.card) (out := o1) h2 (by omega)).1 (by omega)
      refine ⟨o2, ?_, ?_⟩
      · simp only [List.length_cons, decode_loop, e1, e2, ok_bind, e3, seqElems_cons,
          List.length_append, Chk.elems_length, Nat.add_assoc]
      · rw [seqElems_cons]
        exact Wrote.append w1 (by simpa using w2)
    · intro hcap
      by_cases hfit : p + c.body.need ≤ out.length
      · obtain ⟨o1, e1, w1⟩ := k1 hfit
        have hl := w1.length
        have e3 := (ih (p := p + c.card) (out := o1) h2 (by omega)).2 (by omega)
        simp only [List.length_cons, decode_loop, e1, e2, ok_bind, e3]
      · simp only [List.length_cons, decode_loop]
        rw [k2 (by omega)]; rfl

theorem SSeq.decode_room {dbg : Bool} {m : Mem} {s : SSeq} {cs : List Chk} {p : Nat}
    {out : List Nat} (h : SeqAt 31 m s cs) (hpo : p ≤ out.length) :
    (p + chunksNeed cs ≤ out.length →
      ∃ out', s.decode dbg m out p = .ok ((seqElems cs).length, out') ∧
        Wrote out p (seqElems cs) 23 out') ∧
    (out.length < p + chunksNeed cs → s.decode dbg m out p = .error .ub) := by
  obtain ⟨k1, k2⟩ := decode_loop_room (dbg := dbg) h.begin hpo
  unfold SSeq.decode
  rw [h.chunks]
  constructor
  · intro hcap
    obtain ⟨out', e, w⟩ := k1 hcap
    refine ⟨out', ?_, w⟩
    rw [e]
    simp
  · intro hcap
    rw [k2 hcap]; rfl

/-! ## uncompress -/

theorem memcpy_words_err {W : Words} {Q : Nat → Bool} (n i : Nat) {out : List Nat} {p : Nat}
    (hW : BitsAt W (i + n) Q) (h0 : 0 < n) (hcap : out.length < p + (i + n)) :
    memcpy_words W n i out p = .error .ub := by
  induction n generalizing i out with
  | zero => omega
  | succ n ih =>
    obtain ⟨w, e, hw, hb⟩ := hW i (by omega)
    simp only [memcpy_words, e, ok_bind]
    by_cases hp : p + i < out.length
    · rw [wr_of hp, ok_bind]
      exact ih (i + 1) (by rw [show i + 1 + n = i + (n + 1) by omega]; exact hW) (by omega)
        (by rw [List.length_set]; omega)
    · rw [wr_err (by omega)]; rfl

theorem wrs_err' {vs : List Nat} {out : List Nat} {p : Nat} (h0 : vs ≠ [])
    (h : out.length < p + vs.length) : wrs out p vs = .error .ub := by
  by_cases hp : p ≤ out.length
  · exact wrs_err hp h
  · cases vs with
    | nil => exact absurd rfl h0
    | cons v vs =>
      unfold wrs
      rw [wr_err (by omega)]; rfl

theorem uncompress_chunk_err {dbg : Bool} {pad : Nat} {m : Mem} {it : It} {c : Chk} {cs : List Chk}
    {out : List Nat} {p : Nat} (hit : ItOn pad m it (c :: cs)) (hcap : out.length < p + 1024) :
    uncompress_chunk dbg m it out p = .error .ub := by
  have hbody : BodyAt _ _ _ _ := hit.at_.2.1
  have hrep : ∀ w, wrs out p (List.replicate 1024 w) = .error .ub := fun w =>
    wrs_err' (fun e => by have := congrArg List.length e; rw [List.length_replicate] at this; cases this)
      (by rw [List.length_replicate]; exact hcap)
  unfold uncompress_chunk
  cases hb : c.body with
  | full =>
    rw [hit.type_full hb]
    simp only [ok_bind, type_sparse, type_dense, type_full, Nat.reduceEqDiff, if_false, if_true,
      uncompress_full_chunk]
    rw [show chunk_size_in_64bit_words = 1024 from rfl, hrep]; rfl
  | dense vs =>
    rw [hit.type_dense hb]
    rw [hb] at hbody
    replace hbody : BitsAt (memWords m it.data) 1024 (fun x => decide (x ∈ vs)) := hbody
    simp only [ok_bind, type_sparse, type_dense, Nat.reduceEqDiff, if_false, if_true,
      uncompress_dense_chunk]
    rw [show chunk_size / 8 / 8 = 1024 from rfl, memcpy_words_err 1024 0 (by simpa using hbody)
      (by omega) (by omega)]; rfl
  | sparse bs =>
    rw [hit.type_sparse hb]
    simp only [ok_bind, if_true]
    rw [hrep]; rfl

theorem uncompress_loop_err {dbg : Bool} {pad : Nat} {m : Mem} {cs : List Chk} {it : It}
    {prev : Nat} {out : List Nat} {p u : Nat} {P : Nat → Bool} (hit : ItOn pad m it cs)
    (h : BufIs out P) (hcap : ∃ c ∈ cs, out.length < (c.id + 1) * 1024) (hp : p = 1024 * prev)
    (hprev : ∀ c ∈ cs, prev ≤ c.id) :
    uncompress_loop dbg m cs.length it prev out p u = .error .ub := by
  subst hp
  induction cs generalizing it prev out u P with
  | nil => obtain ⟨c, hc, -⟩ := hcap; cases hc
  | cons c cs ih =>
    have hc := hit.wf.head
    have hid := hc.1
    have hpr := hprev c (by simp)
    simp only [List.length_cons, uncompress_loop, hit.id, ok_bind, chunk_size_in_64bit_words]
    rw [u16_lt (by omega), show 1024 * prev + c.id * 1024 - prev * 1024 = 1024 * c.id by omega]
    by_cases hfit : 1024 * c.id + 1024 ≤ out.length
    · obtain ⟨o1, e1, l1, b1⟩ := uncompress_chunk_spec (dbg := dbg) (p := 1024 * c.id) hit h hfit
      obtain ⟨it', e2, hit', -⟩ := hit.next
      rw [e1]
      simp only [ok_bind, e2]
      refine ih hit' b1 ?_ (fun d hd => by have := hit.wf.head_lt d hd; omega)
      obtain ⟨d, hd, hl⟩ := hcap
      rcases List.mem_cons.mp hd with rfl | hd
      · omega
      · exact ⟨d, hd, by rw [l1]; exact hl⟩
    · rw [uncompress_chunk_err hit (by omega)]; rfl

theorem SSeq.uncompress_err {dbg : Bool} {pad : Nat} {m : Mem} {s : SSeq} {cs : List Chk}
    {out : List Nat} {P : Nat → Bool} (hs : SeqAt pad m s cs) (h : BufIs out P)
    (hcap : ∃ c ∈ cs, out.length < (c.id + 1) * 1024) :
    s.uncompress dbg m out = .error .ub := by
  unfold SSeq.uncompress
  rw [hs.chunks, uncompress_loop_err hs.begin h hcap (by omega) (fun _ _ => by omega)]; rfl

end Sliced
