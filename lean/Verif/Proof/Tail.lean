import Verif.Proof.Room
import Verif.Proof.Layout
/-! # The exact number of bytes that must be readable, and slots that must be writable, in decode -/
namespace Sliced

/-- Everything from `lo` up to `E` can be read; the byte at `E` cannot. -/
structure Fence (m : Mem) (lo E : Nat) : Prop where
  read : ∀ q, lo ≤ q → q < E → (m q).isSome = true
  stop : m E = none

theorem Fence.readable {m : Mem} {lo E a n : Nat} (h : Fence m lo E) (ha : lo ≤ a)
    (hn : a + n ≤ E) : Readable m a n :=
  fun _ hi => h.read _ (by omega) (by omega)

theorem mapM_ub {α β : Type} {L : List α} {f : α → Res β}
    (h : ∀ k ∈ L, (∃ v, f k = .ok v) ∨ f k = .error .ub) (hk : ∃ k ∈ L, f k = .error .ub) :
    L.mapM f = .error .ub := by
  induction L with
  | nil => obtain ⟨k, hk, -⟩ := hk; cases hk
  | cons x L ih =>
    rw [List.mapM_cons]
    rcases h x List.mem_cons_self with ⟨v, e⟩ | e
    · rw [e, ok_bind]
      obtain ⟨k, hk, e'⟩ := hk
      rcases List.mem_cons.mp hk with rfl | hk
      · rw [e] at e'; cases e'
      · rw [ih (fun k hk => h k (List.mem_cons_of_mem _ hk)) ⟨k, hk, e'⟩]; rfl
    · rw [e]; rfl

theorem rd8_total (m : Mem) (a : Nat) : (∃ v, rd8 m a = .ok v) ∨ rd8 m a = .error .ub := by
  unfold rd8
  cases m a with
  | none => exact Or.inr rfl
  | some b => exact Or.inl ⟨_, rfl⟩

theorem lddqu_ub {m : Mem} {a E : Nat} (hE : m E = none) (h1 : a ≤ E) (h2 : E < a + 16) :
    lddqu m a = .error .ub := by
  unfold lddqu
  refine mapM_ub (fun k _ => rd8_total m _) ⟨E - a, List.mem_range.mpr (by omega), ?_⟩
  rw [show a + (E - a) = E by omega]
  unfold rd8
  rw [hE]

/-- one SIMD load and store: it needs 16 bytes and 8 slots -/
theorem decode_lane_tail {m : Mem} {lo E src base p : Nat} {out : List Nat} (h : Fence m lo E)
    (h1 : lo ≤ src) (h2 : src ≤ E) (hb : base + 256 ≤ 4294967296) (hp : p ≤ out.length)
    (hn : ¬ (p + 8 ≤ out.length ∧ src + 16 ≤ E)) : decode_lane m src base out p = .error .ub := by
  by_cases hr : src + 16 ≤ E
  · exact decode_lane_err (h.readable h1 hr) hb hp (by omega)
  · unfold decode_lane
    rw [lddqu_ub h.stop h2 (by omega)]; rfl

/-- bytes read for a block of `n` values -/
def lane (n : Nat) : Nat := if n < 31 then if n ≤ 8 then 16 else 40 else 32

theorem lane_ge (n : Nat) : bytes_by_cardinality n ≤ lane n := by
  unfold lane bytes_by_cardinality; split <;> (try split) <;> omega

theorem lane_le {n : Nat} (h : 1 ≤ n) : lane n ≤ bytes_by_cardinality n + 31 := by
  unfold lane bytes_by_cardinality; split <;> (try split) <;> omega

theorem decode_sparse_block_tail {m : Mem} {lo E src base p : Nat} {vals : List Nat}
    {out : List Nat} (hF : Fence m lo E) (h1 : lo ≤ src) (h2 : src ≤ E)
    (hv : BytesAt m src vals) (hc : vals.length < 31)
    (hb : base + 256 ≤ 4294967296) (hpo : p ≤ out.length) :
    (p + room vals.length ≤ out.length ∧ src + lane vals.length ≤ E →
      ∃ out', decode_sparse_block m src vals.length base out p = .ok (vals.length, out') ∧
        Wrote out p (vals.map (base + ·)) (room vals.length - vals.length) out') ∧
    (¬ (p + room vals.length ≤ out.length ∧ src + lane vals.length ≤ E) →
      decode_sparse_block m src vals.length base out p = .error .ub) := by
  have hlane : lane vals.length = if vals.length ≤ 8 then 16 else 40 := by
    unfold lane; rw [if_pos hc]
  constructor
  · rintro ⟨hcap, hE⟩
    rw [hlane] at hE
    exact (decode_sparse_block_room hv hc (hF.readable h1 hE) hb).1 hcap
  · intro hn
    unfold decode_sparse_block
    unfold room at hn
    rw [if_pos hc, hlane] at hn
    by_cases h8 : vals.length ≤ 8
    · rw [if_pos h8, if_pos h8] at hn
      rw [decode_lane_tail (p := p + 0) hF (src := src + 0) h1 h2 hb hpo hn]; rfl
    · rw [if_neg h8, if_neg h8] at hn
      simp only [if_neg h8]
      by_cases c1 : p + 0 + 8 ≤ out.length ∧ src + 0 + 16 ≤ E
      · obtain ⟨o1, e1, w1⟩ := decode_lane_spec (m := m) (src := src + 0) (p := p + 0) (out := out)
          (hF.readable (by omega) c1.2) hb c1.1
        have l1 := w1.length
        rw [e1, ok_bind]
        by_cases c2 : p + 8 + 8 ≤ out.length ∧ src + 8 + 16 ≤ E
        · obtain ⟨o2, e2, w2⟩ := decode_lane_spec (m := m) (src := src + 8) (p := p + 8) (out := o1)
            (hF.readable (by omega) c2.2) hb (by omega)
          have l2 := w2.length
          rw [e2, ok_bind]
          by_cases c3 : p + 16 + 8 ≤ out.length ∧ src + 16 + 16 ≤ E
          · obtain ⟨o3, e3, w3⟩ := decode_lane_spec (m := m) (src := src + 16) (p := p + 16)
              (out := o2) (hF.readable (by omega) c3.2) hb (by omega)
            have l3 := w3.length
            rw [e3, ok_bind, decode_lane_tail (p := p + 24) hF (src := src + 24) (by omega)
              (by omega) hb (by omega) (by omega)]; rfl
          · rw [decode_lane_tail (p := p + 16) hF (src := src + 16) (by omega)
              (by omega) hb (by omega) (by omega)]; rfl
        · rw [decode_lane_tail (p := p + 8) hF (src := src + 8) (by omega)
            (by omega) hb (by omega) (by omega)]; rfl
      · rw [decode_lane_tail (p := p + 0) hF (src := src + 0) (by omega)
          (by omega) hb (by omega) (by omega)]; rfl

theorem decode_blk_tail {m : Mem} {lo E dp base p : Nat} {b : Blk} {out : List Nat}
    (hF : Fence m lo E) (hw : b.WF) (h : BlkAt 0 m dp b) (h1 : lo ≤ dp) (h2 : dp + b.size ≤ E)
    (hb : base + 256 ≤ 4294967296) (hpo : p ≤ out.length) :
    (p + room b.vals.length ≤ out.length ∧ dp + lane b.vals.length ≤ E →
      ∃ out', (if b.vals.length < 31 then decode_sparse_block m dp b.vals.length base out p
          else decode_bitmap (memWords m dp) 4 base out p) = .ok (b.vals.length, out') ∧
        Wrote out p (b.vals.map (base + ·)) 23 out') ∧
    (¬ (p + room b.vals.length ≤ out.length ∧ dp + lane b.vals.length ≤ E) →
      (if b.vals.length < 31 then decode_sparse_block m dp b.vals.length base out p
        else decode_bitmap (memWords m dp) 4 base out p) = .error .ub) := by
  by_cases hc : b.vals.length < 31
  · simp only [if_pos hc]
    unfold BlkAt at h
    rw [if_pos hc] at h
    have hk := decode_sparse_block_tail (p := p) (out := out) hF h1 (by omega) h.1 hc hb hpo
    refine ⟨fun hcap => ?_, hk.2⟩
    obtain ⟨o, e, w⟩ := hk.1 hcap
    have := hw.card_pos
    exact ⟨o, e, w.mono (by have := room_le b.vals.length; omega)⟩
  · simp only [if_neg hc]
    have hrm : room b.vals.length = b.vals.length := by unfold room; rw [if_neg hc]
    have hln : lane b.vals.length = 32 := by unfold lane; rw [if_neg hc]
    have hsz : b.size = 32 := by unfold Blk.size bytes_by_cardinality; rw [if_neg hc]
    rw [hrm, hln]
    unfold BlkAt at h
    rw [if_neg hc] at h
    have hf := filter_mem_bytes (n := 4) hw.2.2.1 hw.2.2.2
    constructor
    · rintro ⟨hcap, -⟩
      obtain ⟨out', e, w⟩ := decode_bitmap_spec (p := p) (out := out) h (by omega)
        (by rw [hf]; omega) (by omega)
      rw [hf] at e w
      exact ⟨out', e, w.mono (by omega)⟩
    · intro hn
      exact decode_bitmap_err h (by omega) (by omega) hpo (by rw [hf]; omega)

/-- bytes read from the first data byte of the blocks on -/
def blocksReach : List Blk → Nat
  | [] => 0
  | b :: bs => max (lane b.vals.length) (b.size + blocksReach bs)

theorem decode_sparse_chunk_loop_tail {m : Mem} {lo E base end_ : Nat} {bs : List Blk} (f : Nat)
    {hp dp p : Nat} {out : List Nat} (hF : Fence m lo E) (hw : BlocksWF bs)
    (h : BlocksAt 0 m hp dp bs) (h1 : lo ≤ dp) (h2 : dp + blkBytes bs ≤ E)
    (he : hp + 2 * bs.length = end_) (hf : bs.length < f) (hb : base + 65536 ≤ 4294967296)
    (hpo : p ≤ out.length) :
    (p + blocksNeed bs ≤ out.length ∧ dp + blocksReach bs ≤ E →
      ∃ out', decode_sparse_chunk_loop m base end_ f hp dp out p
          = .ok (p + (blkElems bs).length, out') ∧
        Wrote out p ((blkElems bs).map (base + ·)) 23 out') ∧
    (¬ (p + blocksNeed bs ≤ out.length ∧ dp + blocksReach bs ≤ E) →
      decode_sparse_chunk_loop m base end_ f hp dp out p = .error .ub) := by
  induction bs generalizing f hp dp p out with
  | nil =>
    obtain ⟨f, rfl⟩ : ∃ g, f = g + 1 := ⟨f - 1, by simp at hf; omega⟩
    refine ⟨fun _ => ⟨out, ?_, by simpa using Wrote.nil _ _ _⟩, fun h => ?_⟩
    · simp at he
      simp [decode_sparse_chunk_loop, he]
    · simp only [blocksNeed, blocksReach, blkBytes, List.map_nil, List.sum_nil] at h h2; omega
  | cons b bs ih =>
    obtain ⟨f, rfl⟩ : ∃ g, f = g + 1 := ⟨f - 1, by simp at hf; omega⟩
    simp only [List.length_cons] at he hf
    obtain ⟨g1, g2, g3, g4⟩ := h
    have hbb : blkBytes (b :: bs) = b.size + blkBytes bs := by simp [blkBytes]
    rw [hbb] at h2
    have hbw := hw.head
    have hc1 := hbw.card_pos
    have hid := hbw.1
    have hne : ¬ hp = end_ := by omega
    have hge := room_ge b.vals.length
    have hge' : b.size ≤ lane b.vals.length := lane_ge _
    obtain ⟨k1, k2⟩ := decode_blk_tail (p := p) (out := out) (base := base + b.id * 256) hF hbw g3
      h1 (by omega) (by omega) hpo
    have hu : u32 (base + b.id * 256) = base + b.id * 256 := u32_lt (by omega)
    have hcc : b.vals.length - 1 + 1 = b.vals.length := by omega
    have step : ∀ o1, (if b.vals.length < 31 then
          decode_sparse_block m dp b.vals.length (base + b.id * 256) out p
        else decode_bitmap (memWords m dp) 4 (base + b.id * 256) out p) = .ok (b.vals.length, o1) →
        decode_sparse_chunk_loop m base end_ (f + 1) hp dp out p
          = decode_sparse_chunk_loop m base end_ f (hp + 2) (dp + b.size) o1 (p + b.vals.length) := by
      intro o1 e1
      conv => lhs; unfold decode_sparse_chunk_loop
      simp only [if_neg hne, g1, g2, ok_bind, hu, hcc]
      unfold Blk.size bytes_by_cardinality
      by_cases hc : b.vals.length < 31
      · rw [if_pos hc] at e1 ⊢
        rw [e1]; simp only [ok_bind, if_pos hc]
      · rw [if_neg hc] at e1 ⊢
        rw [e1]; simp only [ok_bind, if_neg hc]
    unfold blocksNeed blocksReach
    constructor
    · rintro ⟨hcap, hE⟩
      obtain ⟨o1, e1, w1⟩ := k1 (by omega)
      have hl := w1.length
      obtain ⟨o2, e2, w2⟩ := (ih f (p := p + b.vals.length) (out := o1) hw.tail g4 (by omega)
        (by omega) (by omega) (by omega) (by omega)).1 (by omega)
      refine ⟨o2, ?_, ?_⟩
      · rw [step o1 e1, e2, blkElems_cons, List.length_append, Blk.elems_length, Nat.add_assoc]
      · rw [blkElems_cons, List.map_append, ← map_elems]
        exact Wrote.append w1 (by simpa using w2)
    · intro hn
      by_cases hfit : p + room b.vals.length ≤ out.length ∧ dp + lane b.vals.length ≤ E
      · obtain ⟨o1, e1, w1⟩ := k1 hfit
        have hl := w1.length
        rw [step o1 e1]
        exact (ih f (p := p + b.vals.length) (out := o1) hw.tail g4 (by omega)
          (by omega) (by omega) (by omega) (by omega)).2 (by omega)
      · have e := k2 hfit
        unfold decode_sparse_chunk_loop
        simp only [if_neg hne, g1, g2, ok_bind, hu, hcc]
        by_cases hc : b.vals.length < 31
        · rw [if_pos hc] at e ⊢
          rw [e]; rfl
        · rw [if_neg hc] at e ⊢
          rw [show block_size_in_64bit_words = 4 from rfl, e]; rfl

theorem decode_sparse_chunk_tail {dbg : Bool} {m : Mem} {lo E base : Nat} {bs : List Blk}
    {dp p : Nat} {out : List Nat} (hF : Fence m lo E) (hne : bs ≠ []) (hw : BlocksWF bs)
    (h : BlocksAt 0 m dp (dp + 2 * bs.length) bs) (h1 : lo ≤ dp)
    (h2 : dp + (2 * bs.length + blkBytes bs) ≤ E) (hb : base + 65536 ≤ 4294967296)
    (hpo : p ≤ out.length) :
    (p + blocksNeed bs ≤ out.length ∧ dp + (2 * bs.length + blocksReach bs) ≤ E →
      ∃ out', decode_sparse_chunk dbg m dp bs.length base out p
          = .ok ((blkElems bs).length, out') ∧
        Wrote out p ((blkElems bs).map (base + ·)) 23 out') ∧
    (¬ (p + blocksNeed bs ≤ out.length ∧ dp + (2 * bs.length + blocksReach bs) ≤ E) →
      decode_sparse_chunk dbg m dp bs.length base out p = .error .ub) := by
  have hpos := List.length_pos_iff.mpr hne
  have hle := hw.length_le
  obtain ⟨k1, k2⟩ := decode_sparse_chunk_loop_tail (end_ := dp + bs.length * 2) (bs.length + 1)
    (p := p) (out := out) hF hw h (by omega) (by omega) (by omega) (by omega) hb hpo
  unfold decode_sparse_chunk
  rw [cassert_of (by simp; omega)]
  simp only [ok_bind]
  rw [show dp + bs.length * 2 = dp + 2 * bs.length by omega] at k1 k2 ⊢
  constructor
  · intro hcap
    obtain ⟨out', e, w⟩ := k1 (by omega)
    refine ⟨out', ?_, w⟩
    rw [e]
    simp
  · intro hcap
    rw [k2 (by omega)]; rfl

/-- bytes read from the first byte of a chunk on -/
def Body.reach : Body → Nat
  | .sparse bs => 2 * bs.length + blocksReach bs
  | b => b.off

theorem blocksReach_ge (bs : List Blk) : blkBytes bs ≤ blocksReach bs := by
  induction bs with
  | nil => exact Nat.le_refl _
  | cons b bs ih =>
    have hbb : blkBytes (b :: bs) = b.size + blkBytes bs := by simp [blkBytes]
    rw [hbb]; unfold blocksReach; omega

theorem Body.reach_ge (b : Body) : b.off ≤ b.reach := by
  cases b with
  | sparse bs => have := blocksReach_ge bs; simp only [Body.off, Body.reach]; omega
  | _ => exact Nat.le_refl _

theorem decode_chunk_tail {dbg : Bool} {m : Mem} {lo E : Nat} {it : It} {c : Chk} {cs : List Chk}
    {p : Nat} {out : List Nat} (hF : Fence m lo E) (h : ItOn 0 m it (c :: cs)) (h1 : lo ≤ it.data)
    (h2 : it.data + c.body.off ≤ E) (hpo : p ≤ out.length) :
    (p + c.body.need ≤ out.length ∧ it.data + c.body.reach ≤ E →
      ∃ out', decode_chunk dbg m it out p = .ok (c.card, out') ∧ Wrote out p c.elems 23 out') ∧
    (¬ (p + c.body.need ≤ out.length ∧ it.data + c.body.reach ≤ E) →
      decode_chunk dbg m it out p = .error .ub) := by
  have hw := h.wf.head
  have hid := hw.1
  have hbody : BodyAt _ _ _ _ := h.at_.2.1
  have hu : u32 (c.id * 65536) = c.id * 65536 := u32_lt (by omega)
  have hdec : decode_chunk dbg m it out p = (do
      let t ← it.type m
      if t = type_sparse then do
        let blocks ← it.blocks m
        decode_sparse_chunk dbg m it.data blocks (c.id * 65536) out p
      else if t = type_dense then
        decode_bitmap (memWords m it.data) chunk_size_in_64bit_words (c.id * 65536) out p
      else if t = type_full then decode_full_chunk (c.id * 65536) out p
      else unreachable dbg) := by
    unfold decode_chunk
    simp only [h.id, ok_bind, hu]
  unfold Chk.card Chk.elems
  cases hb : c.body with
  | full =>
    have hl : (Body.full).vals.length = 65536 := List.length_range
    rw [hb] at h2
    simp only [Body.need, Body.reach]
    rw [hl]
    constructor
    · rintro ⟨hcap, -⟩
      rw [hdec, h.type_full hb]
      obtain ⟨o, e, w⟩ := decode_full_chunk_spec (base := c.id * 65536) (p := p) (out := out)
        (by omega) hcap
      exact ⟨o, by simpa [type_sparse, type_dense] using e, w.mono (by omega)⟩
    · intro hn
      rw [hdec, h.type_full hb]
      have : decode_full_chunk (c.id * 65536) out p = .error .ub := by
        unfold decode_full_chunk
        rw [wrs_err hpo (by rw [List.length_map, List.length_range]; change _ < _ + 65536; omega)]; rfl
      simpa [type_sparse, type_dense] using this
  | dense vs =>
    rw [hb] at hbody h2
    replace hbody : BitsAt (memWords m it.data) 1024 (fun x => decide (x ∈ vs)) := hbody
    have hbw := hw.2
    rw [hb] at hbw
    simp only [Body.need, Body.reach]
    rw [hdec, h.type_dense hb]
    constructor
    · rintro ⟨hcap, -⟩
      obtain ⟨o, e, w⟩ := decode_dense_spec (base := c.id * 65536) (p := p) (out := out) hbw hbody
        (by omega) hcap
      exact ⟨o, by simpa [type_sparse, Body.vals] using e, w.mono (by omega)⟩
    · intro hn
      simp only [Body.vals] at hn
      have : decode_bitmap (memWords m it.data) 1024 (c.id * 65536) out p = .error .ub :=
        decode_bitmap_err hbody (by omega) (by omega) hpo (by rw [dense_filter hbw]; omega)
      simpa [type_sparse] using this
  | sparse bs =>
    have hbl := h.blocks_sparse hb
    rw [hb] at hbody h2
    have hbw := hw.2
    rw [hb] at hbw
    obtain ⟨k1, k2⟩ := decode_sparse_chunk_tail (dbg := dbg) (base := c.id * 65536) (p := p)
      (out := out) hF hbw.1 hbw.2 hbody h1 h2 (by omega) hpo
    simp only [Body.need, Body.reach]
    rw [hdec, h.type_sparse hb]
    constructor
    · intro hcap
      obtain ⟨o, e, w⟩ := k1 hcap
      refine ⟨o, ?_, w⟩
      simpa [hbl, Body.vals] using e
    · intro hcap
      simpa [hbl] using k2 hcap

/-- bytes read from the first byte of the first chunk on -/
def chunksReach : List Chk → Nat
  | [] => 0
  | c :: cs => max c.body.reach (c.body.off + chunksReach cs)

theorem decode_loop_tail {dbg : Bool} {m : Mem} {lo E : Nat} {cs : List Chk} {it : It} {p : Nat}
    {out : List Nat} (hF : Fence m lo E) (h : ItOn 0 m it cs) (h1 : lo ≤ it.data)
    (h2 : it.data + offSum cs ≤ E) (hpo : p ≤ out.length) :
    (p + chunksNeed cs ≤ out.length ∧ it.data + chunksReach cs ≤ E →
      ∃ out', decode_loop dbg m cs.length it out p = .ok (p + (seqElems cs).length, out') ∧
        Wrote out p (seqElems cs) 23 out') ∧
    (¬ (p + chunksNeed cs ≤ out.length ∧ it.data + chunksReach cs ≤ E) →
      decode_loop dbg m cs.length it out p = .error .ub) := by
  induction cs generalizing it p out with
  | nil =>
    refine ⟨fun _ => ⟨out, rfl, Wrote.nil _ _ _⟩, fun h => ?_⟩
    simp only [chunksNeed, chunksReach, offSum_nil] at h h2; omega
  | cons c cs ih =>
    rw [offSum_cons] at h2
    obtain ⟨k1, k2⟩ := decode_chunk_tail (dbg := dbg) (p := p) (out := out) hF h h1 (by omega) hpo
    obtain ⟨it', e2, g2, -, -, -, -, hd⟩ := h.next
    have hge : c.card ≤ c.body.need := c.body.need_ge
    have hge' := c.body.reach_ge
    unfold chunksNeed chunksReach
    constructor
    · intro hcap
      obtain ⟨o1, e1, w1⟩ := k1 (by omega)
      have hl := w1.length
      obtain ⟨o2, e3, w2⟩ := (ih (p := p + c.card) (out := o1) g2 (by omega) (by omega)
        (by omega)).1 (by omega)
      refine ⟨o2, ?_, ?_⟩
      · simp only [List.length_cons, decode_loop, e1, e2, ok_bind, e3, seqElems_cons,
          List.length_append, Chk.elems_length, Nat.add_assoc]
      · rw [seqElems_cons]
        exact Wrote.append w1 (by simpa using w2)
    · intro hn
      by_cases hfit : p + c.body.need ≤ out.length ∧ it.data + c.body.reach ≤ E
      · obtain ⟨o1, e1, w1⟩ := k1 hfit
        have hl := w1.length
        have e3 := (ih (p := p + c.card) (out := o1) g2 (by omega) (by omega)
          (by omega)).2 (by omega)
        simp only [List.length_cons, decode_loop, e1, e2, ok_bind, e3]
      · simp only [List.length_cons, decode_loop]
        rw [k2 hfit]; rfl

theorem SSeq.decode_tail {dbg : Bool} {m : Mem} {lo E : Nat} {s : SSeq} {cs : List Chk} {p : Nat}
    {out : List Nat} (hF : Fence m lo E) (h : SeqAt 0 m s cs) (h1 : lo ≤ s.data)
    (h2 : s.data + offSum cs ≤ E) (hpo : p ≤ out.length) :
    (p + chunksNeed cs ≤ out.length ∧ s.data + chunksReach cs ≤ E →
      ∃ out', s.decode dbg m out p = .ok ((seqElems cs).length, out') ∧
        Wrote out p (seqElems cs) 23 out') ∧
    (¬ (p + chunksNeed cs ≤ out.length ∧ s.data + chunksReach cs ≤ E) →
      s.decode dbg m out p = .error .ub) := by
  obtain ⟨k1, k2⟩ := decode_loop_tail (dbg := dbg) (p := p) hF h.begin h1 h2 hpo
  unfold SSeq.decode
  rw [h.chunks]
  constructor
  · intro hcap
    obtain ⟨out', e, w⟩ := k1 hcap
    refine ⟨out', ?_, w⟩
    rw [e]
    simp
  · intro hcap
    rw [k2 hcap]; rfl

end Sliced
