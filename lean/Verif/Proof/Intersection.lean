import Verif.Proof.IntersectBlock
import Verif.Proof.Uncompress
import Verif.Proof.Iter
/-! # Intersection of two chunks and of two sequences -/
namespace Sliced

/-- Outcome of skipping the blocks of `bs` whose id is below `k`. -/
def SkipBlocks (pad : Nat) (m : Mem) (p d : Nat) (bs : List Blk) (k : Nat) :
    Option (Nat × Nat) → Prop
  | none => ∀ b ∈ bs, b.id < k
  | some (p', d') => ∃ pre b bs', bs = pre ++ b :: bs' ∧ (∀ x ∈ pre, x.id < k) ∧ k ≤ b.id ∧
      p' = p + 2 * pre.length ∧ BlocksAt pad m p' d' (b :: bs') ∧ d' = d + blkBytes pre

theorem skip_lower_blocks_spec {pad : Nat} {m : Mem} {end_p q k : Nat} (hk : rd8 m q = .ok k)
    (f : Nat) {p d : Nat} {bs : List Blk} (hne : bs ≠ []) (hw : BlocksWF bs)
    (h : BlocksAt pad m p d bs) (he : p + 2 * bs.length = end_p) (hf : bs.length < f) :
    ∃ o, skip_lower_blocks m end_p q f p d = .ok o ∧ SkipBlocks pad m p d bs k o := by
  induction f generalizing p d bs with
  | zero => omega
  | succ f ih =>
    obtain ⟨b, bs, rfl⟩ := List.exists_cons_of_ne_nil hne
    have hB := h
    obtain ⟨h1, h2, h3, h4⟩ := h
    simp only [List.length_cons] at he hf
    simp only [skip_lower_blocks, h1, hk, ok_bind]
    by_cases hv : b.id < k
    · rw [if_pos hv]
      by_cases hend : p + 2 = end_p
      · rw [if_pos hend]
        have : bs = [] := List.length_eq_zero_iff.mp (by omega)
        subst this
        exact ⟨none, rfl, by simpa [SkipBlocks] using hv⟩
      · rw [if_neg hend]
        have hc := hw.head.card_pos
        obtain ⟨o, e, s⟩ := ih (p := p + 2) (d := d + b.size) (bs := bs)
          (by intro h0; subst h0; simp at he; omega) hw.tail h4 (by omega) (by omega)
        refine ⟨o, ?_, ?_⟩
        · simp only [h2, ok_bind, Nat.sub_add_cancel hc]; exact e
        · match o, s with
          | none, s =>
            intro x hx
            rcases List.mem_cons.mp hx with rfl | hx
            · exact hv
            · exact s x hx
          | some (p', d'), s =>
            obtain ⟨pre, w, V', g1, g2, g3, g4, g5, g6⟩ := s
            refine ⟨b :: pre, w, V', by simp [g1], ?_, g3, by simp; omega, g5, by simp [blkBytes] at g6 ⊢; omega⟩
            intro x hx
            rcases List.mem_cons.mp hx with rfl | hx
            · exact hv
            · exact g2 x hx
    · rw [if_neg hv]
      exact ⟨some (p, d), rfl, [], b, bs, rfl, by simp, by omega, by simp, hB, by simp [blkBytes]⟩

theorem blk_sep {A B : List Blk} (hA : BlocksWF A) (hB : BlocksWF B) :
    Sep Blk.id Blk.elems A B := by
  intro a ha b hb x h1 h2
  have := (hA.2 a ha).elems_bound x h1
  have := (hB.2 b hb).elems_bound x h2
  omega

theorem BlocksWF.append_right {A B : List Blk} (h : BlocksWF (A ++ B)) : BlocksWF B :=
  ⟨(List.pairwise_append.mp h.1).2.1, fun b hb => h.2 b (by simp [hb])⟩

theorem BlocksWF.ge_head {b : Blk} {bs : List Blk} (h : BlocksWF (b :: bs)) :
    ∀ x ∈ b :: bs, b.id ≤ x.id := by
  intro x hx
  rcases List.mem_cons.mp hx with rfl | hx
  · omega
  · have := h.head_lt x hx; omega

/-- intersecting the elements below all others, or with nothing in common -/
theorem inter_flat_nil {α : Type} {key : α → Nat} {g : α → List Nat} {A B : List α}
    (hs : Sep key g A B) (h : ∀ a ∈ A, ∀ b ∈ B, key a ≠ key b) :
    inter (A.flatMap g) (B.flatMap g) = [] := by
  unfold inter
  rw [List.filter_eq_nil_iff]
  intro x hx
  rw [List.mem_flatMap] at hx
  obtain ⟨a, ha, hxa⟩ := hx
  rw [decide_eq_true_eq, List.mem_flatMap]
  rintro ⟨b, hb, hxb⟩
  exact h a ha b hb (hs a ha b hb x hxa hxb)

theorem ss_intersect_chunk_loop_spec {dbg : Bool} {tab : Nat → List Nat} (ht : TabOk tab) {m : Mem}
    {end_l end_r base : Nat} (f : Nat) {l dl r dr tmp : Nat} {L R : List Blk} {buf : List Nat}
    (hL : L ≠ []) (hR : R ≠ []) (wL : BlocksWF L) (wR : BlocksWF R) (al : BlocksAt 31 m l dl L)
    (ar : BlocksAt 31 m r dr R) (el : l + 2 * L.length = end_l) (er : r + 2 * R.length = end_r)
    (hf : L.length + R.length < f) (hb : base + 65536 ≤ 4294967296)
    (hcap : tmp + (inter (blkElems L) (blkElems R)).length + 8 ≤ buf.length) :
    ∃ buf', ss_intersect_chunk_loop dbg tab m end_l end_r base f l dl r dr buf tmp
        = .ok (tmp + (inter (blkElems L) (blkElems R)).length, buf') ∧
      Wrote buf tmp ((inter (blkElems L) (blkElems R)).map (base + ·)) 8 buf' := by
  induction f generalizing l dl r dr tmp L R buf with
  | zero => omega
  | succ f ih =>
    obtain ⟨k, R, rfl⟩ := List.exists_cons_of_ne_nil hR
    have hRk := wR.ge_head
    obtain ⟨o, e1, s1⟩ := skip_lower_blocks_spec (m := m) (q := r) ar.1 (end_l - l + 1) hL wL al el
      (by omega)
    simp only [ss_intersect_chunk_loop, e1, ok_bind]
    match o, s1 with
    | none, s1 =>
      have : inter (blkElems L) (blkElems (k :: R)) = [] :=
        inter_flat_nil (blk_sep wL wR) (fun a ha b hb => by
          have := s1 a ha; have := hRk b hb; omega)
      rw [this]
      exact ⟨buf, rfl, Wrote.nil _ _ _⟩
    | some (l', dl'), ⟨pre, v, V, hLV, hpre, hkv, hl', al', _⟩ =>
      subst hLV
      have i1 : inter (blkElems (pre ++ v :: V)) (blkElems (k :: R))
          = inter (blkElems (v :: V)) (blkElems (k :: R)) :=
        inter_drop_left (blk_sep wL wR)
          (fun a ha b hb => Nat.lt_of_lt_of_le (hpre a ha) (hRk b hb))
      rw [i1] at hcap ⊢
      have wL' := wL.append_right
      have hVv := wL'.ge_head
      simp only [List.length_append, List.length_cons] at el hf er
      obtain ⟨o, e2, s2⟩ := skip_lower_blocks_spec (m := m) (q := l') (p := r) (d := dr) al'.1
        (end_r - r + 1) (bs := k :: R) (end_p := end_r) (by simp) wR ar (by simp; omega)
        (by simp; omega)
      simp only [e2, ok_bind]
      match o, s2 with
      | none, s2 =>
        have : inter (blkElems (v :: V)) (blkElems (k :: R)) = [] :=
          inter_flat_nil (blk_sep wL' wR) (fun a ha b hb => by
            have := s2 b hb; have := hVv a ha; omega)
        rw [this]
        exact ⟨buf, rfl, Wrote.nil _ _ _⟩
      | some (r', dr'), ⟨pre2, w, W, hRW, hpre2, hvw, hr', ar', _⟩ =>
        have hlenR : R.length + 1 = pre2.length + (W.length + 1) := by
          have := congrArg List.length hRW
          simpa using this
        rw [hRW] at hcap ar wR ⊢
        have i2 : inter (blkElems (v :: V)) (blkElems (pre2 ++ w :: W))
            = inter (blkElems (v :: V)) (blkElems (w :: W)) :=
          inter_drop_right (blk_sep wL' wR)
            (fun a ha b hb => Nat.lt_of_lt_of_le (hpre2 b hb) (hVv a ha))
        rw [i2] at hcap ⊢
        have wR' := wR.append_right
        simp only [al'.1, ar'.1, ok_bind]
        by_cases hvw' : v.id = w.id
        · have i3 : inter (blkElems (v :: V)) (blkElems (w :: W))
              = (inter v.vals w.vals).map (v.id * 256 + ·) ++ inter (blkElems V) (blkElems W) := by
            have := inter_cons_cons (blk_sep wL' wR') hvw' wL'.head_lt wR'.head_lt
            rw [← inter_map_add]
            rw [show w.vals.map (v.id * 256 + ·) = w.elems by rw [hvw']; rfl]
            exact this
          rw [i3, List.length_append, List.length_map] at hcap
          rw [i3, List.length_append, List.length_map]
          have hid := wL'.head.1
          have hu : u32 (base + v.id * 256) = base + v.id * 256 := u32_lt (by omega)
          have cv := wL'.head.card_pos
          have cw := wR'.head.card_pos
          obtain ⟨o1, e3, w3⟩ := intersect_blocks_spec (dbg := dbg) ht wL'.head wR'.head al'.2.2.1
            ar'.2.2.1 (base := base + v.id * 256) (out := tmp) (buf := buf) (by omega) (by omega)
          have lo := w3.length
          have hmap : (inter v.vals w.vals).map (base + v.id * 256 + ·)
              = ((inter v.vals w.vals).map (v.id * 256 + ·)).map (base + ·) := by
            rw [List.map_map]
            apply List.map_congr_left
            intro x _
            simp only [Function.comp]; omega
          rw [hmap] at w3
          rw [if_pos hvw']
          simp only [al'.2.1, ar'.2.1, ok_bind, Nat.sub_add_cancel cv, Nat.sub_add_cancel cw, hu, e3]
          by_cases c : l' + 2 = end_l ∨ r' + 2 = end_r
          · have : inter (blkElems V) (blkElems W) = [] := by
              rcases c with c | c
              · have : V = [] := List.length_eq_zero_iff.mp (by omega)
                subst this; rfl
              · have : W = [] := List.length_eq_zero_iff.mp (by omega)
                subst this; exact inter_nil _
            rw [if_pos c, this, List.append_nil]
            exact ⟨o1, rfl, w3⟩
          · rw [if_neg c]
            obtain ⟨o2, e4, w4⟩ := ih (l := l' + 2) (dl := dl' + v.size) (r := r' + 2)
              (dr := dr' + w.size) (tmp := tmp + (inter v.vals w.vals).length) (L := V) (R := W)
              (buf := o1) (by intro h0; subst h0; simp at el; omega)
              (by intro h0; subst h0; simp at hlenR; omega) wL'.tail wR'.tail al'.2.2.2 ar'.2.2.2
              (by omega) (by omega) (by omega) (by omega)
            refine ⟨o2, ?_, ?_⟩
            · unfold Blk.size at e4
              rw [e4, Nat.add_assoc]
            · rw [List.map_append]
              exact Wrote.append w3 (by simpa using w4)
        · rw [if_neg hvw']
          have hp2 : 0 < pre2.length := by
            rcases Nat.eq_zero_or_pos pre2.length with h0 | h0
            · have : pre2 = [] := List.length_eq_zero_iff.mp h0
              subst this
              simp only [List.nil_append, List.cons.injEq] at hRW
              rw [hRW.1] at hkv
              omega
            · exact h0
          exact ih (by simp) (by simp) wL' wR' al' ar' (by simp; omega) (by simp; omega)
            (by simp; omega) hcap

theorem ss_intersect_chunk_spec {dbg : Bool} {tab : Nat → List Nat} (ht : TabOk tab) {m : Mem}
    {base l r out : Nat} {L R : List Blk} {buf : List Nat}
    (hL : L ≠ []) (hR : R ≠ []) (wL : BlocksWF L) (wR : BlocksWF R)
    (al : BlocksAt 31 m l (l + 2 * L.length) L) (ar : BlocksAt 31 m r (r + 2 * R.length) R)
    (hb : base + 65536 ≤ 4294967296)
    (hcap : out + (inter (blkElems L) (blkElems R)).length + 8 ≤ buf.length) :
    ∃ buf', ss_intersect_chunk dbg tab m l r L.length R.length base buf out
        = .ok ((inter (blkElems L) (blkElems R)).length, buf') ∧
      Wrote buf out ((inter (blkElems L) (blkElems R)).map (base + ·)) 8 buf' := by
  have h1 := List.length_pos_iff.mpr hL
  have h2 := wL.length_le
  have h3 := List.length_pos_iff.mpr hR
  have h4 := wR.length_le
  obtain ⟨o, e, w⟩ := ss_intersect_chunk_loop_spec (dbg := dbg) ht (end_l := l + 2 * L.length)
    (end_r := r + 2 * R.length) (tmp := out) (buf := buf)
    (L.length + R.length + 1) hL hR wL wR al ar rfl rfl (by omega) hb hcap
  refine ⟨o, ?_, w⟩
  unfold ss_intersect_chunk
  rw [cassert_of (by simp; omega), cassert_of (by simp; omega)]
  simp only [ok_bind, show L.length * 2 = 2 * L.length by omega,
    show R.length * 2 = 2 * R.length by omega, e, pure_ok, Nat.add_sub_cancel_left]

/-- `BitsAt` of the bitwise and, as a list -/
theorem and_filter {n : Nat} {A B : List Nat} (sA : A.Pairwise (· < ·)) (bA : ∀ x ∈ A, x < 64 * n) :
    (List.range (64 * n)).filter (fun x => decide (x ∈ A) && decide (x ∈ B)) = inter A B := by
  apply sorted_ext (range_sorted _ |>.filter _) (inter_sorted sA)
  intro x
  simp only [List.mem_filter, List.mem_range, Bool.and_eq_true, decide_eq_true_eq, mem_inter]
  exact ⟨fun h => h.2, fun h => ⟨bA x h.1, h⟩⟩

theorem and_bitmaps_spec {W V : Words} {A B : List Nat} {n base out : Nat} {buf : List Nat}
    (hW : BitsAt W n (fun x => decide (x ∈ A))) (hV : BitsAt V n (fun x => decide (x ∈ B)))
    (sA : A.Pairwise (· < ·)) (bA : ∀ x ∈ A, x < 64 * n) (hb : base + 64 * n ≤ 4294967296)
    (hn : 0 < n) (hcap : out + (inter A B).length ≤ buf.length) :
    ∃ buf', and_bitmaps W V n base buf out = .ok ((inter A B).length, buf') ∧
      Wrote buf out ((inter A B).map (base + ·)) 0 buf' := by
  have hf := and_filter (n := n) (B := B) sA bA
  obtain ⟨o, e, w⟩ := decode_bitmap_spec (p := out) (out := buf) (hW.and hV) (b := base) hb
    (by rw [hf]; exact hcap) hn
  rw [hf] at e w
  refine ⟨o, ?_, w⟩
  unfold and_bitmaps
  rw [operate_bitmaps_eq, e]

theorem ds_intersect_chunk_spec {dbg : Bool} {pad : Nat} {m : Mem} {base l r out : Nat} {vs : List Nat}
    {R : List Blk} {x buf : List Nat} (hv : (Body.dense vs).WF)
    (al : BitsAt (memWords m l) 1024 (fun y => decide (y ∈ vs))) (hR : R ≠ []) (wR : BlocksWF R)
    (ar : BlocksAt pad m r (r + 2 * R.length) R) (hx : x.length = 1024)
    (hb : base + 65536 ≤ 4294967296)
    (hcap : out + (inter vs (blkElems R)).length ≤ buf.length) :
    ∃ x' buf', ds_intersect_chunk dbg m l r R.length base x buf out
        = .ok ((inter vs (blkElems R)).length, x', buf') ∧ x'.length = 1024 ∧
      Wrote buf out ((inter vs (blkElems R)).map (base + ·)) 0 buf' := by
  have hz : BufIs (List.replicate x.length 0) (fun _ => false) :=
    bufIs_replicate (by omega) (fun j _ _ => by simp)
  obtain ⟨x', e1, l1, b1⟩ := uncompress_sparse_chunk_spec (dbg := dbg) (out := List.replicate x.length 0)
    (p := 0) hR wR ar hz (by rw [List.length_replicate]; omega) (fun _ _ _ => rfl)
  rw [List.length_replicate, hx] at l1
  have b2 := b1.bitsAt (n := 1024) (by omega)
  have b3 : BitsAt (vecWords x') 1024 (fun y => decide (y ∈ blkElems R)) := by
    simpa using b2
  obtain ⟨o, e2, w2⟩ := and_bitmaps_spec al b3 hv.2.1 hv.2.2 (base := base) (out := out)
    (buf := buf) hb (by omega) hcap
  refine ⟨x', o, ?_, l1, w2⟩
  unfold ds_intersect_chunk
  simp only [e1, ok_bind]
  have : chunk_size_in_64bit_words = 1024 := rfl
  rw [this, e2]
  rfl

theorem inter_full_right {A : List Nat} (h : ∀ x ∈ A, x < 65536) :
    inter A (List.range 65536) = A := by
  unfold inter
  rw [List.filter_eq_self]
  intro x hx
  rw [decide_eq_true_eq, List.mem_range]
  exact h x hx

theorem inter_full_left {A : List Nat} (hs : A.Pairwise (· < ·)) (h : ∀ x ∈ A, x < 65536) :
    inter (List.range 65536) A = A := by
  rw [inter_comm (range_sorted _) hs, inter_full_right h]

/-- The switch over the nine pairs of chunk types. -/
theorem intersect_chunks_spec {dbg : Bool} {tab : Nat → List Nat} (ht : TabOk tab) {m : Mem}
    {Bl Br : Nat → Chk → Prop} {il ir : It} {a b : Chk} {L R : List Chk} {base out : Nat}
    {x buf : List Nat} (hl : ItOnP Bl m il (a :: L)) (hr : ItOnP Br m ir (b :: R))
    (ha : BodyAt 31 m il.data a.body) (hb' : BodyAt 31 m ir.data b.body) (hb : base + 65536 ≤ 4294967296)
    (hx : x.length = 1024)
    (hcap : out + (inter a.body.vals b.body.vals).length + 23 ≤ buf.length) :
    ∃ x' buf', intersect_chunks dbg tab m il ir base x buf out
        = .ok ((inter a.body.vals b.body.vals).length, x', buf') ∧ x'.length = 1024 ∧
      Wrote buf out ((inter a.body.vals b.body.vals).map (base + ·)) 23 buf' := by
  have wa := hl.wf.head.2
  have wb := hr.wf.head.2
  have sa := wa.sorted
  have sb := wb.sorted
  have ba := wa.bound
  have bb := wb.bound
  have c1024 : chunk_size_in_64bit_words = 1024 := rfl
  unfold intersect_chunks
  cases ea : a.body with
  | full =>
    rw [hl.type_full ea]
    rw [ea] at hcap wa sa ba ha
    cases eb : b.body with
    | full =>
      rw [hr.type_full eb]
      rw [eb] at hcap
      have hv : inter Body.full.vals Body.full.vals = List.range 65536 :=
        inter_full_right (fun x hx => List.mem_range.mp hx)
      rw [hv] at hcap ⊢
      rw [List.length_range] at hcap ⊢
      obtain ⟨o, e, w⟩ := decode_full_chunk_spec (p := out) (out := buf) hb (by omega)
      refine ⟨x, o, ?_, hx, w.mono (by omega)⟩
      simp [type_sparse, type_dense, chunk_pair, e, type_full]
    | dense vs =>
      rw [hr.type_dense eb]
      rw [eb] at hcap wb sb bb hb'
      rw [show inter Body.full.vals (Body.dense vs).vals = vs from inter_full_left sb bb] at hcap ⊢
      obtain ⟨o, e, w⟩ := decode_dense_spec (p := out) (out := buf) wb hb' hb (by omega)
      refine ⟨x, o, ?_, hx, w.mono (by omega)⟩
      simp [type_sparse, type_dense, chunk_pair, e, type_full, c1024]
    | sparse bs =>
      rw [hr.type_sparse eb]
      have hbl := hr.blocks_sparse eb
      rw [eb] at hcap wb sb bb hb'
      rw [show inter Body.full.vals (Body.sparse bs).vals = blkElems bs from
        inter_full_left sb bb] at hcap ⊢
      obtain ⟨o, e, w⟩ := decode_sparse_chunk_spec (dbg := dbg) (p := out) (out := buf) wb.1 wb.2 hb' hb (by omega)
      refine ⟨x, o, ?_, hx, w⟩
      simp [type_sparse, type_dense, chunk_pair, e, type_full, hbl]
  | dense us =>
    rw [hl.type_dense ea]
    rw [ea] at hcap wa sa ba ha
    cases eb : b.body with
    | full =>
      rw [hr.type_full eb]
      rw [eb] at hcap
      rw [show inter (Body.dense us).vals Body.full.vals = us from inter_full_right ba] at hcap ⊢
      obtain ⟨o, e, w⟩ := decode_dense_spec (p := out) (out := buf) wa ha hb (by omega)
      refine ⟨x, o, ?_, hx, w.mono (by omega)⟩
      simp [type_sparse, type_dense, chunk_pair, e, type_full, c1024]
    | dense vs =>
      rw [hr.type_dense eb]
      rw [eb] at hcap wb sb bb hb'
      obtain ⟨o, e, w⟩ := and_bitmaps_spec ha hb' sa ba (base := base) (out := out) (buf := buf) hb
        (by omega) (by simp only [Body.vals] at hcap ⊢; omega)
      refine ⟨x, o, ?_, hx, w.mono (by omega)⟩
      simp [type_sparse, type_dense, chunk_pair, e, type_full, c1024, Body.vals]
    | sparse bs =>
      rw [hr.type_sparse eb]
      have hbl := hr.blocks_sparse eb
      rw [eb] at hcap wb sb bb hb'
      obtain ⟨x', o, e, lx, w⟩ := ds_intersect_chunk_spec (dbg := dbg) wa ha wb.1 wb.2 hb' hx hb
        (out := out) (buf := buf) (by simp only [Body.vals] at hcap ⊢; omega)
      refine ⟨x', o, ?_, lx, w.mono (by omega)⟩
      simp [type_sparse, type_dense, chunk_pair, e, type_full, hbl, Body.vals]
  | sparse as =>
    rw [hl.type_sparse ea]
    have hal := hl.blocks_sparse ea
    rw [ea] at hcap wa sa ba ha
    cases eb : b.body with
    | full =>
      rw [hr.type_full eb]
      rw [eb] at hcap
      rw [show inter (Body.sparse as).vals Body.full.vals = blkElems as from
        inter_full_right ba] at hcap ⊢
      obtain ⟨o, e, w⟩ := decode_sparse_chunk_spec (dbg := dbg) (p := out) (out := buf) wa.1 wa.2 ha hb (by omega)
      refine ⟨x, o, ?_, hx, w⟩
      simp [type_sparse, type_dense, chunk_pair, e, type_full, hal]
    | dense vs =>
      rw [hr.type_dense eb]
      rw [eb] at hcap wb sb bb hb'
      rw [inter_comm sa sb] at hcap ⊢
      obtain ⟨x', o, e, lx, w⟩ := ds_intersect_chunk_spec (dbg := dbg) wb hb' wa.1 wa.2 ha hx hb
        (out := out) (buf := buf) (by simp only [Body.vals] at hcap ⊢; omega)
      refine ⟨x', o, ?_, lx, w.mono (by omega)⟩
      simp [type_sparse, type_dense, chunk_pair, e, type_full, hal, Body.vals]
    | sparse bs =>
      rw [hr.type_sparse eb]
      have hbl := hr.blocks_sparse eb
      rw [eb] at hcap wb sb bb hb'
      by_cases hlt : as.length < bs.length
      · obtain ⟨o, e, w⟩ := ss_intersect_chunk_spec (dbg := dbg) ht wa.1 wb.1 wa.2 wb.2 ha hb' hb
          (out := out) (buf := buf) (by simp only [Body.vals] at hcap ⊢; omega)
        refine ⟨x, o, ?_, hx, w.mono (by omega)⟩
        simp [type_sparse, chunk_pair, e, hbl, hal, Body.vals, hlt]
      · rw [inter_comm sa sb] at hcap ⊢
        obtain ⟨o, e, w⟩ := ss_intersect_chunk_spec (dbg := dbg) ht wb.1 wa.1 wb.2 wa.2 hb' ha hb
          (out := out) (buf := buf) (by simp only [Body.vals] at hcap ⊢; omega)
        refine ⟨x, o, ?_, hx, w.mono (by omega)⟩
        simp [type_sparse, chunk_pair, e, hbl, hal, Body.vals, hlt]

theorem chk_sep {A B : List Chk} (hA : ChunksWF A) (hB : ChunksWF B) :
    Sep Chk.id Chk.elems A B := by
  intro a ha b hb x h1 h2
  have := (hA.2 a ha).elems_bound x h1
  have := (hB.2 b hb).elems_bound x h2
  omega

theorem ChunksWF.ge_head {c : Chk} {cs : List Chk} (h : ChunksWF (c :: cs)) :
    ∀ x ∈ c :: cs, c.id ≤ x.id := by
  intro x hx
  rcases List.mem_cons.mp hx with rfl | hx
  · omega
  · have := h.head_lt x hx; omega

theorem inter_elems {a b : Chk} (h : a.id = b.id) :
    inter a.elems b.elems = (inter a.body.vals b.body.vals).map (a.id * 65536 + ·) := by
  unfold Chk.elems
  rw [← h, inter_map_add]

/-- dropping the chunks below a bound that is not above any chunk of the other list -/
theorem inter_fromId_left {A B : List Chk} {k : Nat} (hA : ChunksWF A) (hB : ChunksWF B)
    (h : ∀ b ∈ B, k ≤ b.id) :
    inter (seqElems A) (seqElems B) = inter (seqElems (fromId k A)) (seqElems B) := by
  rcases fromId_cases k A with ⟨h1, h2⟩ | ⟨pre, c, post, h1, h2, h3, _⟩
  · rw [h1]
    exact inter_flat_nil (chk_sep hA hB) (fun a ha b hb => by
      have := h2 a ha; have := h b hb; omega)
  · rw [h2]
    subst h1
    exact inter_drop_left (chk_sep hA hB) (fun a ha b hb => Nat.lt_of_lt_of_le (h3 a ha) (h b hb))

theorem inter_fromId_right {A B : List Chk} {k : Nat} (hA : ChunksWF A) (hB : ChunksWF B)
    (h : ∀ a ∈ A, k ≤ a.id) :
    inter (seqElems A) (seqElems B) = inter (seqElems A) (seqElems (fromId k B)) := by
  rcases fromId_cases k B with ⟨h1, h2⟩ | ⟨pre, c, post, h1, h2, h3, _⟩
  · rw [h1, show seqElems [] = [] from rfl, inter_nil]
    exact inter_flat_nil (chk_sep hA hB) (fun a ha b hb => by
      have := h2 b hb; have := h a ha; omega)
  · rw [h2]
    subst h1
    exact inter_drop_right (chk_sep hA hB) (fun a ha b hb => Nat.lt_of_lt_of_le (h3 b hb) (h a ha))

theorem fromId_length_lt {A : List Chk} {a : Chk} {k : Nat} (h : a.id < k) :
    (fromId k (a :: A)).length < (a :: A).length := by
  have : fromId k (a :: A) = fromId k A := by simp [fromId, h]
  rw [this]
  have := (fromId_sublist k A).length_le
  simp only [List.length_cons]; omega

theorem pairwise_intersection_loop_spec {dbg : Bool} {tab : Nat → List Nat} (ht : TabOk tab)
    {m : Mem} {Bl Br : Nat → Chk → Prop} (f : Nat) {il ir : It} {L R : List Chk} {out : Nat}
    {x buf : List Nat} (hl : ItOnP Bl m il L) (hr : ItOnP Br m ir R)
    (hBl : ∀ dp, ∀ c ∈ L, ∀ d ∈ R, c.id = d.id → Bl dp c → BodyAt 31 m dp c.body)
    (hBr : ∀ dp, ∀ c ∈ R, ∀ d ∈ L, c.id = d.id → Br dp c → BodyAt 31 m dp c.body)
    (hx : x.length = 1024)
    (hf : L.length + R.length < f)
    (hcap : out + (inter (seqElems L) (seqElems R)).length + 23 ≤ buf.length) :
    ∃ x' buf', pairwise_intersection_loop dbg tab m f il ir x buf out
        = .ok (out + (inter (seqElems L) (seqElems R)).length, x', buf') ∧ x'.length = 1024 ∧
      Wrote buf out (inter (seqElems L) (seqElems R)) 23 buf' := by
  induction f generalizing il ir L R out x buf with
  | zero => omega
  | succ f ih =>
    cases L with
    | nil =>
      refine ⟨x, buf, ?_, hx, Wrote.nil _ _ _⟩
      simp [pairwise_intersection_loop, hl.has_next_nil, seqElems, inter]
    | cons a L =>
      cases R with
      | nil =>
        refine ⟨x, buf, ?_, hx, ?_⟩
        · simp [pairwise_intersection_loop, hr.has_next_nil, seqElems, inter]
        · rw [show seqElems [] = [] from rfl, inter_nil]; exact Wrote.nil _ _ _
      | cons b R =>
        have ia := hl.wf.head.1
        have ib := hr.wf.head.1
        simp only [pairwise_intersection_loop, hl.has_next, hr.has_next, Bool.and_self, if_true,
          hl.id, hr.id, ok_bind, u16_lt (show a.id < 65536 by omega),
          u16_lt (show b.id < 65536 by omega)]
        by_cases hab : a.id = b.id
        · rw [if_pos hab]
          have i3 : inter (seqElems (a :: L)) (seqElems (b :: R))
              = inter a.elems b.elems ++ inter (seqElems L) (seqElems R) :=
            inter_cons_cons (chk_sep hl.wf hr.wf) hab hl.wf.head_lt hr.wf.head_lt
          rw [i3, inter_elems hab, List.length_append, List.length_map] at hcap
          rw [i3, inter_elems hab, List.length_append, List.length_map]
          rw [u32_lt (show a.id * 65536 < 4294967296 by omega)]
          obtain ⟨x1, o1, e1, lx1, w1⟩ := intersect_chunks_spec (dbg := dbg) ht hl hr
            (hBl _ a (by simp) b (by simp) hab hl.at_.2.1)
            (hBr _ b (by simp) a (by simp) hab.symm hr.at_.2.1)
            (base := a.id * 65536) (out := out) (buf := buf) (by omega) hx (by omega)
          have lo := w1.length
          obtain ⟨il', n1, hl', -⟩ := hl.next
          obtain ⟨ir', n2, hr', -⟩ := hr.next
          simp only [List.length_cons] at hf
          obtain ⟨x2, o2, e2, lx2, w2⟩ := ih (il := il') (ir := ir') (x := x1) (buf := o1)
            (out := out + (inter a.body.vals b.body.vals).length) hl' hr'
            (fun dp c hc d hd => hBl dp c (by simp [hc]) d (by simp [hd]))
            (fun dp c hc d hd => hBr dp c (by simp [hc]) d (by simp [hd])) lx1 (by omega) (by omega)
          refine ⟨x2, o2, ?_, lx2, ?_⟩
          · simp only [e1, ok_bind, n1, n2, e2, Nat.add_assoc]
          · exact Wrote.append w1 (by simpa using w2)
        · rw [if_neg hab]
          by_cases hlt : a.id < b.id
          · rw [if_pos hlt]
            rw [inter_fromId_left hl.wf hr.wf hr.wf.ge_head] at hcap ⊢
            obtain ⟨it', e, hit, -⟩ := It.advance_spec (lb := b.id) hl
            have := fromId_length_lt (A := L) hlt
            obtain ⟨x2, o2, e2, lx2, w2⟩ := ih (il := it') (ir := ir) (x := x) (buf := buf)
              (out := out) hit hr
              (fun dp c hc => hBl dp c ((fromId_sublist _ _).subset hc))
              (fun dp c hc d hd => hBr dp c hc d ((fromId_sublist _ _).subset hd)) hx (by omega) hcap
            exact ⟨x2, o2, by simp only [e, ok_bind, e2], lx2, w2⟩
          · rw [if_neg hlt]
            rw [inter_fromId_right hl.wf hr.wf hl.wf.ge_head] at hcap ⊢
            obtain ⟨it', e, hit, -⟩ := It.advance_spec (lb := a.id) hr
            have := fromId_length_lt (A := R) (show b.id < a.id by omega)
            obtain ⟨x2, o2, e2, lx2, w2⟩ := ih (il := il) (ir := it') (x := x) (buf := buf)
              (out := out) hl hit
              (fun dp c hc d hd => hBl dp c hc d ((fromId_sublist _ _).subset hd))
              (fun dp c hc => hBr dp c ((fromId_sublist _ _).subset hc)) hx (by omega) hcap
            exact ⟨x2, o2, by simp only [e, ok_bind, e2], lx2, w2⟩

/-- Only the data of the common slices matters. -/
theorem pairwise_intersection_specP {dbg : Bool} {tab : Nat → List Nat} (ht : TabOk tab)
    {m : Mem} {Bl Br : Nat → Chk → Prop} {l r : SSeq} {L R : List Chk} {out : Nat}
    {x buf : List Nat} (hl : SeqAtP Bl m l L) (hr : SeqAtP Br m r R)
    (hBl : ∀ dp, ∀ c ∈ L, ∀ d ∈ R, c.id = d.id → Bl dp c → BodyAt 31 m dp c.body)
    (hBr : ∀ dp, ∀ c ∈ R, ∀ d ∈ L, c.id = d.id → Br dp c → BodyAt 31 m dp c.body)
    (hx : x.length = 1024)
    (hcap : out + (inter (seqElems L) (seqElems R)).length + 23 ≤ buf.length) :
    ∃ x' buf', pairwise_intersection dbg tab m l r x buf out
        = .ok ((inter (seqElems L) (seqElems R)).length, x', buf') ∧ x'.length = 1024 ∧
      Wrote buf out (inter (seqElems L) (seqElems R)) 23 buf' := by
  obtain ⟨x', o, e, lx, w⟩ := pairwise_intersection_loop_spec (dbg := dbg) ht
    (l.chunks + r.chunks + 1) hl.begin hr.begin hBl hBr (out := out) (buf := buf) hx
    (by rw [hl.chunks, hr.chunks]; omega) hcap
  refine ⟨x', o, ?_, lx, w⟩
  unfold pairwise_intersection
  simp only [e, ok_bind, pure_ok, Nat.add_sub_cancel_left]

theorem pairwise_intersection_spec {dbg : Bool} {tab : Nat → List Nat} (ht : TabOk tab)
    {m : Mem} {l r : SSeq} {L R : List Chk} {out : Nat} {x buf : List Nat}
    (hl : SeqAt 31 m l L) (hr : SeqAt 31 m r R) (hx : x.length = 1024)
    (hcap : out + (inter (seqElems L) (seqElems R)).length + 23 ≤ buf.length) :
    ∃ x' buf', pairwise_intersection dbg tab m l r x buf out
        = .ok ((inter (seqElems L) (seqElems R)).length, x', buf') ∧ x'.length = 1024 ∧
      Wrote buf out (inter (seqElems L) (seqElems R)) 23 buf' :=
  pairwise_intersection_specP ht hl hr (fun _ _ _ _ _ _ h => h) (fun _ _ _ _ _ _ h => h) hx hcap

end Sliced
