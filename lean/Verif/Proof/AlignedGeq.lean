import Verif.Proof.AlignedQueries
/-! # `select`, `next_geq` and the enumerator with checked alignment -/
namespace Sliced

/-! ## `select` -/

theorem select_bitmap_aligned {dbg : Bool} {m : Mem} {p n r : Nat} (hn : 1 ≤ n) :
    Gated (p % 8 = 0) (select_bitmap dbg (memWordsA m p) n r) (select_bitmap dbg (memWords m p) n r) := by
  obtain ⟨k, rfl⟩ : ∃ k, n = k + 1 := ⟨n - 1, by omega⟩
  exact gated_words (fun W => select_bitmap dbg W (k + 1) r) rfl

theorem select_sparse_chunk_loop_aligned {dbg : Bool} {pad : Nat} {m : Mem} {rank end_ : Nat}
    {bs : List Blk} (f : Nat) {hp dp el x : Nat} (hw : BlocksWF bs)
    (h : BlocksAt pad m hp dp bs) (he : hp + 2 * bs.length = end_) (hf : bs.length < f)
    (hel : el ≤ rank) (htot : el + (blkElems bs).length < 4294967296)
    (hx : (blkElems bs)[rank - el]? = some x) :
    Gated (blkAlignedAt (x / 256) dp bs) (select_sparse_chunk_loopA dbg m rank end_ f hp dp el)
      (select_sparse_chunk_loop dbg m rank end_ f hp dp el) := by
  induction bs generalizing f hp dp el with
  | nil => simp at hx
  | cons b bs ih =>
    obtain ⟨f, rfl⟩ : ∃ g, f = g + 1 := ⟨f - 1, by simp at hf; omega⟩
    simp only [List.length_cons] at he hf
    obtain ⟨h1, h2, h3, h4⟩ := h
    have hbw := hw.head
    have hid := hbw.1
    have hc1 := hbw.card_pos
    have hcl := hbw.card_le
    have hcc : b.vals.length - 1 + 1 = b.vals.length := by omega
    have hne : ¬ hp = end_ := by omega
    have hlen := (List.getElem?_eq_some_iff.mp hx).1
    rw [blkElems_cons, List.length_append, Blk.elems_length] at htot hlen
    unfold select_sparse_chunk_loopA select_sparse_chunk_loop
    simp only [if_neg hne, h1, h2, ok_bind, hcc]
    rw [u32_lt (x := el + b.vals.length) (by omega)]
    rw [blkElems_cons] at hx
    by_cases hgt : el + b.vals.length > rank
    · rw [if_pos hgt, if_pos hgt, sub32_eq (by omega) hel, cassert_of (by simp; omega)]
      simp only [ok_bind]
      rw [List.getElem?_append_left (by rw [Blk.elems_length]; omega)] at hx
      unfold Blk.elems at hx
      rw [List.getElem?_map] at hx
      obtain ⟨y, hy, rfl⟩ := Option.map_eq_some_iff.mp hx
      have hy256 := hbw.2.2.2 y (List.mem_of_getElem? hy)
      have heq : b.id = (b.id * 256 + y) / 256 := by omega
      by_cases hc : b.vals.length < 31
      · rw [if_pos hc, if_pos hc]
        exact Gated.of_true ((blkAlignedAt_head hw heq).mpr (fun h => by omega)) rfl
      · rw [if_neg hc, if_neg hc]
        refine ((select_bitmap_aligned (by decide)).left _).iff ?_
        rw [blkAlignedAt_head hw heq]
        exact ⟨fun h _ => h, fun h => h (by omega)⟩
    · rw [if_neg hgt, if_neg hgt]
      rw [List.getElem?_append_right (by rw [Blk.elems_length]; omega), Blk.elems_length] at hx
      have hk := ih f hw.tail h4 (by omega) (by omega) (el := el + b.vals.length) (by omega) (by omega)
        (by rw [show rank - (el + b.vals.length) = rank - el - b.vals.length by omega]; exact hx)
      have hcond : blkAlignedAt (x / 256) (dp + b.size) bs ↔
          blkAlignedAt (x / 256) dp (b :: bs) := by
        refine ⟨fun h => ⟨fun e => ?_, h⟩, fun h => h.2⟩
        obtain ⟨d, hd, e1, -⟩ := (mem_blkElems hw.tail).mp (List.mem_of_getElem? hx)
        have := hw.head_lt d hd
        omega
      exact hk.iff hcond

theorem select_chunk_aligned {dbg : Bool} {m : Mem} {it : It}
    {c : Chk} {cs : List Chk} {r x : Nat} (hev : it.header % 2 = 0) (h : ItOn 0 m it (c :: cs))
    (hx : c.body.vals[r]? = some x) :
    Gated (bodyAlignedAt x it.data c.body)
      (do
        let t ← it.typeA m
        if t = type_sparse then do
          let blocks ← it.blocksA m
          select_sparse_chunkA dbg m it.data blocks r
        else if t = type_dense then
          select_bitmap dbg (memWordsA m it.data) chunk_size_in_64bit_words r
        else if t = type_full then pure r
        else unreachable dbg : Res Nat)
      (do
        let t ← it.type m
        if t = type_sparse then do
          let blocks ← it.blocks m
          select_sparse_chunk dbg m it.data blocks r
        else if t = type_dense then
          select_bitmap dbg (memWords m it.data) chunk_size_in_64bit_words r
        else if t = type_full then pure r
        else unreachable dbg : Res Nat) := by
  have hw := h.wf.head
  have hbw := hw.2
  have hbody : BodyAt 0 m it.data c.body := h.at_.2.1
  simp only [It.typeA_eq hev, It.blocksA_eq hev]
  cases hb : c.body with
  | full =>
    rw [h.type_full hb]
    simp only [ok_bind, type_sparse, type_dense, type_full, if_true, Nat.reduceEqDiff, if_false]
    exact Gated.of_true trivial rfl
  | dense vs =>
    rw [h.type_dense hb]
    simp only [ok_bind, type_sparse, type_dense, if_true, Nat.reduceEqDiff, if_false]
    exact select_bitmap_aligned (by decide)
  | sparse bs =>
    rw [h.type_sparse hb, h.blocks_sparse hb]
    rw [hb] at hbody hbw hx
    have h1 := List.length_pos_iff.mpr hbw.1
    have h2 := hbw.2.length_le
    have h3 := sorted_length_le' hbw.2.sorted hbw.2.bound
    simp only [ok_bind, if_true, select_sparse_chunk, select_sparse_chunkA]
    rw [cassert_of (by simp; omega)]
    simp only [ok_bind]
    rw [show it.data + bs.length * 2 = it.data + 2 * bs.length by omega]
    exact select_sparse_chunk_loop_aligned _ hbw.2 hbody rfl (by omega) (by omega) (by omega) hx

/-- moving the rest of a block into the branches of the switch -/
theorem switch_bind {t : Nat} {a b c d : Res Nat} {α : Type} (f : Nat → Res α) :
    (if t = type_sparse then a >>= f else if t = type_dense then b >>= f
      else if t = type_full then c >>= f else d >>= f)
    = (if t = type_sparse then a else if t = type_dense then b
      else if t = type_full then c else d) >>= f := by
  split
  · rfl
  · split
    · rfl
    · split <;> rfl

theorem SSeq.select_aligned {dbg : Bool} {m : Mem} {s : SSeq} {cs : List Chk}
    (hh : s.header % 2 = 0) (h : SeqAt 0 m s cs) {r : Nat} (hr : r < 4294967296) (v : Nat) :
    Gated ((32 < cs.length → s.pointers % 4 = 0) ∧
        ∀ x, (seqElems cs)[r]? = some x → chkAlignedAt x s.data cs)
      (s.selectA dbg m r v) (s.select dbg m r v) := by
  unfold SSeq.selectA SSeq.select
  obtain ⟨it, k, e, hit, hk, -, hl⟩ := It.skip_to_position_spec (rank := r) h.begin h.ptrs
  have hA := It.skip_to_position_gated (rank := r) h.begin h.ptrs hh
  obtain ⟨k', hk', hre'⟩ := It.skip_to_position_reach h.begin h.ptrs e
  have hkk : cs.drop k' = cs.drop k := by
    have h1 := hit.end_
    have h2 := hre'.2.2.1
    have h3 := hre'.2.2.2
    have h4 := (h.begin).end_
    simp only [List.length_drop] at h1 h2
    by_cases hkl : k ≤ cs.length
    · rw [show k' = k by omega]
    · rw [List.drop_eq_nil_of_le (by omega), List.drop_eq_nil_of_le (by omega)]
  have hre : Reach s.begin cs it (cs.drop k) := by rw [← hkk]; exact hre'
  rw [e] at hA
  simp only [e, ok_bind]
  refine Gated.both hA (g := fun p => do
    if p.1.has_next then do
      let rank := sub32 r p.2
      cassert dbg (rank < chunk_size)
      let t ← p.1.type m
      let value ←
        if t = type_sparse then do
          let blocks ← p.1.blocks m
          select_sparse_chunk dbg m p.1.data blocks rank
        else if t = type_dense then
          select_bitmap dbg (memWords m p.1.data) chunk_size_in_64bit_words rank
        else if t = type_full then pure rank
        else unreachable dbg
      let i ← p.1.id m
      return (true, u32 (value + u32 (i * 65536)))
    else return (false, v)) ?_
  have hev : it.header % 2 = 0 := by
    have := hre.1
    simp only [SSeq.begin] at this
    omega
  have hsplit : seqElems cs = seqElems (cs.take k) ++ seqElems (cs.drop k) := by
    rw [← seqElems_append, List.take_append_drop]
  have hlt := seqElems_length (cs.take k)
  cases hd : cs.drop k with
  | nil =>
    rw [hd] at hit
    have : (seqElems cs)[r]? = none := by
      rw [List.getElem?_eq_none_iff, hsplit, hd, List.length_append, hlt]; simp; omega
    rw [this]
    simp only [hit.has_next_nil]
    exact Gated.of_true (fun x hx => nomatch hx) rfl
  | cons c post =>
    rw [hd] at hit hl hre
    have hc := hl c rfl
    have hcw := hit.wf.head
    have hcl := hcw.card_le
    have hid := hcw.1
    simp only [hit.has_next, if_true]
    rw [sub32_eq hr hk, cassert_of (by simp only [chunk_size, decide_eq_true_eq]; omega)]
    simp only [ok_bind]
    have hlen : r - cardSum (cs.take k) < c.body.vals.length := by
      have : c.card = c.body.vals.length := rfl
      omega
    have hx := List.getElem?_eq_getElem hlen
    have hxb := hcw.2.bound _ (List.mem_of_getElem? hx)
    have hget : (seqElems cs)[r]? = some (c.id * 65536 + c.body.vals[r - cardSum (cs.take k)]) := by
      rw [hsplit, hd, List.getElem?_append_right (by omega), hlt, seqElems_cons,
        List.getElem?_append_left (by rw [Chk.elems_length]; exact hlen)]
      unfold Chk.elems
      rw [List.getElem?_map, hx]; rfl
    have hv := select_chunk_aligned (dbg := dbg) hev hit hx
    have hcond : (∀ x, (seqElems cs)[r]? = some x → chkAlignedAt x s.data cs) ↔
        bodyAlignedAt c.body.vals[r - cardSum (cs.take k)] it.data c.body := by
      rw [hget]
      have hcs : cs = cs.take k ++ c :: post := by rw [← hd, List.take_append_drop]
      have hw := h.wf
      rw [hcs] at hw hre
      have hlt' : ∀ d ∈ cs.take k, d.id < c.id := fun d hd =>
        (List.pairwise_append.mp hw.1).2.2 d hd c (by simp)
      have hq := chkAlignedAt_reach (v := c.id * 65536 + c.body.vals[r - cardSum (cs.take k)]) hre
        (fun d hd => by have := hlt' d hd; omega)
      rw [chkAlignedAt_head hit.wf (by omega), ← hcs,
        show (c.id * 65536 + c.body.vals[r - cardSum (cs.take k)]) % 65536
          = c.body.vals[r - cardSum (cs.take k)] by omega] at hq
      constructor
      · intro h; exact hq.mp (h _ rfl)
      · intro h x hx; cases hx; exact hq.mpr h
    have := (hv.iff hcond.symm).left (fun value => do
      let i ← it.id m
      return (true, u32 (value + u32 (i * 65536))))
    simp only [It.idA_eq hev, It.typeA_eq hev, It.blocksA_eq hev] at this ⊢
    rw [hit.type] at this ⊢
    simp only [ok_bind] at this ⊢
    rw [hit.blocks] at this ⊢
    simp only [ok_bind] at this ⊢
    rw [← switch_bind, ← switch_bind] at this
    exact this

/-! ## `next_geq` -/

theorem block_min_aligned {m : Mem} {hp dp base n : Nat} (hn : 1 ≤ n)
    (h2 : rd8 m (hp + 1) = .ok (n - 1)) :
    Gated (31 ≤ n → dp % 8 = 0) (block_minA m hp dp base) (block_min m hp dp base) := by
  unfold block_minA block_min
  rw [h2]
  simp only [ok_bind]
  by_cases hc : n - 1 < 30
  · rw [if_pos hc, if_pos hc]
    exact Gated.of_true (fun h => by omega) rfl
  · rw [if_neg hc, if_neg hc]
    refine ((gated_words (fun W => min_value_in_bitmap W block_size_in_64bit_words) rfl).left _).iff ?_
    exact ⟨fun h _ => h, fun h => h (by omega)⟩

theorem max_value_in_block_aligned {m : Mem} {hp dp n : Nat} (hn : 1 ≤ n)
    (h2 : rd8 m (hp + 1) = .ok (n - 1)) :
    Gated (31 ≤ n → dp % 8 = 0) (max_value_in_blockA m hp dp) (max_value_in_block m hp dp) := by
  unfold max_value_in_blockA max_value_in_block
  rw [h2]
  simp only [ok_bind]
  by_cases hc : n - 1 < 30
  · rw [if_pos hc, if_pos hc]
    exact Gated.of_true (fun h => by omega) rfl
  · rw [if_neg hc, if_neg hc]
    refine (gated_words (fun W => max_value_in_bitmap W block_size_in_64bit_words) rfl).iff ?_
    exact ⟨fun h _ => h, fun h => h (by omega)⟩

theorem next_geq_bitmap_aligned {m : Mem} {p n v : Nat} :
    Gated (p % 8 = 0) (next_geq_bitmap (memWordsA m p) n v) (next_geq_bitmap (memWords m p) n v) :=
  gated_words (fun W => next_geq_bitmap W n v) rfl

/-- where `skip_blocks` stops in the data -/
theorem skip_blocks_data {pad : Nat} {m : Mem} {block_id end_ : Nat} {bs : List Blk} (f : Nat)
    {hp dp id hp' dp' id' : Nat} (hw : BlocksWF bs) (h : BlocksAt pad m hp dp bs)
    (he : hp + 2 * bs.length = end_) (hid : rd8 m hp = .ok id)
    (e : skip_blocks m block_id end_ f hp dp id = .ok (hp', dp', id')) :
    ∃ pre bs', bs = pre ++ bs' ∧ hp' + 2 * bs'.length = end_ ∧ dp' = dp + blkBytes pre := by
  induction bs generalizing f hp dp id with
  | nil =>
    cases f with
    | zero => cases e
    | succ f =>
      simp only [List.length_nil, Nat.mul_zero, Nat.add_zero] at he
      unfold skip_blocks at e
      rw [if_neg (by omega)] at e
      cases e
      exact ⟨[], [], rfl, he, rfl⟩
  | cons b bs ih =>
    cases f with
    | zero => cases e
    | succ f =>
      simp only [List.length_cons] at he
      obtain ⟨h1, h2, h3, h4⟩ := h
      have hc1 := hw.head.card_pos
      have hcc : b.vals.length - 1 + 1 = b.vals.length := by omega
      unfold skip_blocks at e
      split at e
      · simp only [h2, ok_bind, hcc] at e
        obtain ⟨x, hx, e⟩ := bind_ok e
        obtain ⟨pre, bs', e1, e2, e3⟩ := ih f hw.tail h4 (by omega) hx e
        refine ⟨b :: pre, bs', by rw [e1]; rfl, e2, ?_⟩
        have hbb : blkBytes (b :: pre) = b.size + blkBytes pre := by simp [blkBytes]
        rw [e3, hbb, Nat.add_assoc]
      · cases e
        exact ⟨[], b :: bs, rfl, by simpa using he, rfl⟩

theorem blkAlignedAt_at {q D : Nat} {pre bs' : List Blk} {b : Blk} (hw : BlocksWF (pre ++ b :: bs'))
    (h : b.id = q) :
    blkAlignedAt q D (pre ++ b :: bs') ↔ (31 ≤ b.vals.length → (D + blkBytes pre) % 8 = 0) := by
  rw [blkAlignedAt_append, blkAlignedAt_head hw.append_right h]
  refine ⟨fun h => h.2, fun hA => ⟨blkAlignedAt_none ?_, hA⟩⟩
  intro d hd
  have := (List.pairwise_append.mp hw.1).2.2 d hd b (by simp)
  omega

theorem next_geq_sparse_chunk_aligned {dbg : Bool} {pad : Nat} {m : Mem} {dp v : Nat} {bs : List Blk}
    (hne : bs ≠ []) (hw : BlocksWF bs) (h : BlocksAt pad m dp (dp + 2 * bs.length) bs)
    (hv : v < 65536) :
    Gated (blkAlignedAt (v / 256) (dp + 2 * bs.length) bs ∧
        ∀ y, geq v (blkElems bs) = some y → blkAlignedAt (y / 256) (dp + 2 * bs.length) bs)
      (next_geq_sparse_chunkA dbg m dp bs.length v) (next_geq_sparse_chunk dbg m dp bs.length v) := by
  have hl1 := List.length_pos_iff.mpr hne
  have hl2 := hw.length_le
  unfold next_geq_sparse_chunkA next_geq_sparse_chunk
  rw [cassert_of (by simp; omega)]
  simp only [ok_bind]
  rw [show dp + bs.length * 2 = dp + 2 * bs.length by omega]
  have hrd : ∃ x, rd8 m dp = .ok x := by
    cases bs with
    | nil => exact absurd rfl hne
    | cons d bs => exact ⟨_, h.1⟩
  obtain ⟨id, hid⟩ := hrd
  obtain ⟨hp', dp', id', pre, bs', e, hbs, hpre, hat, he', hid', hle, hhd⟩ :=
    skip_blocks_spec (block_id := v / 256) (bs.length + 1) hw h rfl (by omega) hid
  have hdp : dp' = dp + 2 * bs.length + blkBytes pre := by
    obtain ⟨pre2, bs2, g1, g2, g3⟩ := skip_blocks_data _ hw h rfl hid e
    have hl : pre2.length = pre.length := by
      have a1 := congrArg List.length hbs
      have a2 := congrArg List.length g1
      rw [List.length_append] at a1 a2
      omega
    have := List.append_inj (hbs.symm.trans g1) hl.symm
    rw [this.1]; exact g3
  simp only [hid, ok_bind, e]
  generalize hD : dp + 2 * bs.length = D at *
  have hw' : BlocksWF bs' := by rw [hbs] at hw; exact hw.append_right
  have hwp : BlocksWF pre := by rw [hbs] at hw; exact hw.append_left
  have hnone : geq v (blkElems pre) = none := by
    apply geq_none_of_lt
    intro x hx
    obtain ⟨b, hb, h1, h2⟩ := (mem_blkElems hwp).mp hx
    have := hpre b hb
    omega
  have hg : geq v (blkElems bs) = geq v (blkElems bs') := by
    rw [hbs, blkElems_append, geq_append, hnone, Option.none_or]
  rw [hg]
  cases bs' with
  | nil =>
    simp at he'
    rw [if_neg (by omega), if_neg (by omega)]
    refine Gated.of_true ⟨blkAlignedAt_none ?_, fun y hy => nomatch hy⟩ rfl
    intro b hb
    rw [hbs, List.append_nil] at hb
    have := hpre b hb
    omega
  | cons b bs' =>
    simp only [List.length_cons] at he'
    have hpD : hp' ≠ D := by omega
    rw [if_pos hpD, if_pos hpD]
    obtain ⟨h1, h2, h3, h4⟩ := hat
    have hidb : id' = b.id := by rw [h1] at hid'; cases hid'; rfl
    subst hidb
    have hb := hw'.head
    have hbid := hb.1
    have hcp := hb.card_pos
    obtain ⟨x, hx⟩ := hb.head?_exists
    have hx256 := hb.2.2.2 x (List.mem_of_head? hx)
    have hge := hhd b rfl
    have hwb := hw
    rw [hbs] at hwb
    by_cases hbase : b.id * 256 ≥ v
    · rw [if_pos hbase, if_pos hbase]
      have hgq : geq v (blkElems (b :: bs')) = some (b.id * 256 + x) := by
        rw [geq_head_of_le, blkElems_head? hx]
        intro y hy
        obtain ⟨d, hd, e1, e2⟩ := (mem_blkElems hw').mp hy
        rcases List.mem_cons.mp hd with rfl | hd
        · omega
        · have := hw'.head_lt d hd; omega
      refine (block_min_aligned hcp h2).iff ?_
      rw [hgq, hdp, hbs, ← blkAlignedAt_at hwb (show b.id = (b.id * 256 + x) / 256 by omega)]
      constructor
      · intro hA
        refine ⟨?_, fun y hy => by cases hy; exact hA⟩
        by_cases hq : b.id = v / 256
        · rw [show v / 256 = (b.id * 256 + x) / 256 by omega]; exact hA
        · rw [blkAlignedAt_append]
          refine ⟨blkAlignedAt_none (fun d hd => by have := hpre d hd; omega),
            blkAlignedAt_none (fun d hd => ?_)⟩
          rcases List.mem_cons.mp hd with rfl | hd
          · exact hq
          · have := hw'.head_lt d hd; omega
      · intro hA
        exact hA.2 _ rfl
    · rw [if_neg hbase, if_neg hbase]
      have hbeq : b.id = v / 256 := by omega
      obtain ⟨mx, emx, hmx1, hmx2⟩ := blk_max_spec hb h2 h3
      have hc1 : (31 ≤ b.vals.length → dp' % 8 = 0) ↔ blkAlignedAt (v / 256) D bs := by
        rw [hdp, hbs, blkAlignedAt_at hwb hbeq]
      have hmxA := (max_value_in_block_aligned hcp h2 (dp := dp')).iff hc1
      rw [emx] at hmxA ⊢
      simp only [ok_bind]
      refine Gated.both hmxA (g := fun mx =>
        if v % 256 > mx then
          if hp' + 2 = D then return not_found
          else do
            let c1 ← rd8 m (hp' + 1)
            let id ← rd8 m (hp' + 2)
            block_min m (hp' + 2) (dp' + bytes_by_cardinality (c1 + 1)) (id * 256)
        else do
          let c1 ← rd8 m (hp' + 1)
          if c1 + 1 < 31 then do
            let x ← next_geq_sparse_block m dp' (c1 + 1) (v % 256)
            return u32 (x + b.id * 256)
          else do
            let x ← next_geq_bitmap (memWords m dp') block_size_in_64bit_words (v % 256)
            return u32 (x + b.id * 256)) ?_
      have hvb : v - b.id * 256 = v % 256 := by omega
      rw [blkElems_cons, geq_append]
      by_cases hgt : v % 256 > mx
      · rw [if_pos hgt, if_pos hgt]
        have hn : geq v b.elems = none := by
          apply geq_none_of_lt
          intro y hy
          unfold Blk.elems at hy
          obtain ⟨z, hz, rfl⟩ := List.mem_map.mp hy
          have := hmx2 z hz
          omega
        rw [hn, Option.none_or]
        cases bs' with
        | nil =>
          simp at he'
          rw [if_pos he', if_pos he']
          exact Gated.of_true (fun y hy => nomatch hy) rfl
        | cons d ds =>
          simp only [List.length_cons] at he'
          rw [if_neg (by omega), if_neg (by omega)]
          obtain ⟨g1, g2, g3, g4⟩ := h4
          have hd := hw'.tail.head
          have hdid := hd.1
          obtain ⟨y, hy⟩ := hd.head?_exists
          have hy256 := hd.2.2.2 y (List.mem_of_head? hy)
          have hlt := hw'.head_lt d (by simp)
          simp only [h2, ok_bind, g1, show b.vals.length - 1 + 1 = b.vals.length by omega]
          have hgq : geq v (blkElems (d :: ds)) = some (d.id * 256 + y) := by
            rw [geq_head_of_le, blkElems_head? hy]
            intro y hy
            obtain ⟨d', hd', e1, e2⟩ := (mem_blkElems hw'.tail).mp hy
            rcases List.mem_cons.mp hd' with rfl | hd'
            · omega
            · have := hw'.tail.head_lt d' hd'; omega
          refine (block_min_aligned hd.card_pos g2).iff ?_
          have hbb : blkBytes (pre ++ [b]) = blkBytes pre + b.size := by simp [blkBytes]
          have hwd : BlocksWF ((pre ++ [b]) ++ d :: ds) := by
            rw [List.append_assoc]; exact hwb
          have := blkAlignedAt_at (D := D) hwd (show d.id = (d.id * 256 + y) / 256 by omega)
          rw [hgq, hdp, hbs, show bytes_by_cardinality b.vals.length = b.size from rfl,
            Nat.add_assoc, ← hbb, ← this, List.append_assoc]
          exact ⟨fun hA y hy => by cases hy; exact hA, fun hA => hA _ rfl⟩
      · rw [if_neg hgt, if_neg hgt]
        simp only [h2, ok_bind, show b.vals.length - 1 + 1 = b.vals.length by omega]
        obtain ⟨z, hz⟩ : ∃ z, geq (v % 256) b.vals = some z := by
          cases hq : geq (v % 256) b.vals with
          | some z => exact ⟨z, rfl⟩
          | none =>
            unfold geq at hq
            rw [List.find?_eq_none] at hq
            have := hq mx hmx1
            simp at this; omega
        have hzm : z ∈ b.vals := List.mem_of_find?_eq_some hz
        have hz256 := hb.2.2.2 z hzm
        have hfin : geq v b.elems = some (b.id * 256 + z) := by
          unfold Blk.elems
          rw [geq_map_add (by omega), hvb, hz]; rfl
        rw [hfin, Option.some_or]
        have hcond : (∀ y, some (b.id * 256 + z) = some y → blkAlignedAt (y / 256) D bs) ↔
            (31 ≤ b.vals.length → dp' % 8 = 0) := by
          rw [hc1]
          constructor
          · intro hA
            have := hA _ rfl
            rwa [show (b.id * 256 + z) / 256 = v / 256 by omega] at this
          · intro hA y hy
            cases hy
            rwa [show (b.id * 256 + z) / 256 = v / 256 by omega]
        refine Gated.iff ?_ hcond.symm
        by_cases hc : b.vals.length < 31
        · rw [if_pos hc, if_pos hc]
          exact Gated.of_true (fun h => by omega) rfl
        · rw [if_neg hc, if_neg hc]
          refine (next_geq_bitmap_aligned.left _).iff ?_
          exact ⟨fun h _ => h, fun h => h (by omega)⟩

theorem chunk_min_aligned {dbg : Bool} {m : Mem} {it : It}
    {c : Chk} {cs : List Chk} {x : Nat} (hev : it.header % 2 = 0) (h : ItOn 0 m it (c :: cs))
    (hx : c.body.vals.head? = some x) :
    Gated (bodyAlignedAt x it.data c.body) (chunk_minA dbg m it) (chunk_min dbg m it) := by
  have hw := h.wf.head
  have hbw := hw.2
  have hbody : BodyAt 0 m it.data c.body := h.at_.2.1
  unfold chunk_minA chunk_min
  simp only [It.typeA_eq hev, It.blocksA_eq hev, It.baseA_eq hev]
  cases hb : c.body with
  | full =>
    rw [h.type_full hb]
    simp only [ok_bind, type_sparse, type_dense, type_full, if_true, Nat.reduceEqDiff, if_false]
    exact Gated.of_true trivial rfl
  | dense vs =>
    rw [h.type_dense hb]
    simp only [ok_bind, type_sparse, type_dense, if_true, Nat.reduceEqDiff, if_false]
    exact (gated_words (fun W => min_value_in_bitmap W chunk_size_in_64bit_words) rfl).left _
  | sparse bs =>
    rw [h.type_sparse hb, h.blocks_sparse hb]
    rw [hb] at hbody hbw hx
    have h1 := List.length_pos_iff.mpr hbw.1
    have h2 := hbw.2.length_le
    simp only [ok_bind, if_true, min_value_in_sparse_chunk, min_value_in_sparse_chunkA]
    rw [cassert_of (by simp; omega)]
    simp only [ok_bind]
    rw [show it.data + bs.length * 2 = it.data + 2 * bs.length by omega]
    replace hbody : BlocksAt 0 m it.data (it.data + 2 * bs.length) bs := hbody
    obtain ⟨hne, hwf⟩ := hbw
    cases bs with
    | nil => exact absurd rfl hne
    | cons b bs =>
      obtain ⟨y, hy⟩ := hwf.head.head?_exists
      have hy256 := hwf.head.2.2.2 y (List.mem_of_head? hy)
      have hyx : x = b.id * 256 + y := by
        have := blkElems_head? (bs := bs) hy
        simp only [Body.vals] at hx
        rw [this] at hx
        cases hx; rfl
      rw [hbody.1]
      simp only [ok_bind]
      refine ((block_min_aligned hwf.head.card_pos hbody.2.1).left _).iff ?_
      exact (blkAlignedAt_head hwf (by omega)).symm

theorem next_geq_chunk_aligned {dbg : Bool} {m : Mem} {it : It}
    {c : Chk} {cs : List Chk} {v : Nat} (hev : it.header % 2 = 0) (h : ItOn 0 m it (c :: cs))
    (hv : v < 65536) :
    Gated (bodyAlignedAt v it.data c.body ∧
        ∀ y, geq v c.body.vals = some y → bodyAlignedAt y it.data c.body)
      (do
        let t ← it.typeA m
        if t = type_sparse then do
          let blocks ← it.blocksA m
          next_geq_sparse_chunkA dbg m it.data blocks v
        else if t = type_dense then
          next_geq_bitmap (memWordsA m it.data) chunk_size_in_64bit_words v
        else if t = type_full then pure v
        else unreachable dbg : Res Nat)
      (do
        let t ← it.type m
        if t = type_sparse then do
          let blocks ← it.blocks m
          next_geq_sparse_chunk dbg m it.data blocks v
        else if t = type_dense then
          next_geq_bitmap (memWords m it.data) chunk_size_in_64bit_words v
        else if t = type_full then pure v
        else unreachable dbg : Res Nat) := by
  have hw := h.wf.head
  have hbw := hw.2
  have hbody : BodyAt 0 m it.data c.body := h.at_.2.1
  simp only [It.typeA_eq hev, It.blocksA_eq hev]
  cases hb : c.body with
  | full =>
    rw [h.type_full hb]
    simp only [ok_bind, type_sparse, type_dense, type_full, if_true, Nat.reduceEqDiff, if_false]
    exact Gated.of_true ⟨trivial, fun _ _ => trivial⟩ rfl
  | dense vs =>
    rw [h.type_dense hb]
    simp only [ok_bind, type_sparse, type_dense, if_true, Nat.reduceEqDiff, if_false]
    exact next_geq_bitmap_aligned.iff ⟨fun h => ⟨h, fun _ _ => h⟩, fun h => h.1⟩
  | sparse bs =>
    rw [h.type_sparse hb, h.blocks_sparse hb]
    rw [hb] at hbody hbw
    simp only [ok_bind, if_true]
    exact next_geq_sparse_chunk_aligned hbw.1 hbw.2 hbody hv

theorem SSeq.next_geq_aligned {dbg : Bool} {m : Mem} {s : SSeq} {cs : List Chk}
    (hh : s.header % 2 = 0) (h : SeqAt 0 m s cs) {v : Nat} (hv : v < 4294967296) :
    Gated ((Jumps (v / 65536) cs → s.pointers % 4 = 0) ∧ chkAlignedAt v s.data cs ∧
        ∀ y, geq v (seqElems cs) = some y → chkAlignedAt y s.data cs)
      (s.next_geqA dbg m v) (s.next_geq dbg m v) := by
  unfold SSeq.next_geqA SSeq.next_geq
  obtain ⟨it, e, hit, -⟩ := It.skip_to_value_spec (lb := v / 65536) h.begin h.ptrs
  have hA := It.skip_to_value_gated (lb := v / 65536) h.begin h.ptrs hh
  have hre := It.skip_to_value_reach h.begin h.ptrs e
  rw [e] at hA
  simp only [e, ok_bind]
  refine Gated.both hA (g := fun it => do
    let b ← it.base m
    if b ≥ v then chunk_min dbg m it
    else if it.has_next then do
      let t ← it.type m
      let value ←
        if t = type_sparse then do
          let blocks ← it.blocks m
          next_geq_sparse_chunk dbg m it.data blocks (v % 65536)
        else if t = type_dense then
          next_geq_bitmap (memWords m it.data) chunk_size_in_64bit_words (v % 65536)
        else if t = type_full then pure (v % 65536)
        else unreachable dbg
      if value ≠ not_found then return u32 (value + b)
      else do
        let it ← it.next m
        if it.has_next then chunk_min dbg m it
        else return not_found
    else return not_found) ?_
  have hev : it.header % 2 = 0 := by
    have := hre.1
    simp only [SSeq.begin] at this
    omega
  simp only [It.typeA_eq hev, It.blocksA_eq hev, It.baseA_eq hev, It.nextA_eq hev]
  rcases fromId_cases (v / 65536) cs with ⟨h1, h2⟩ | ⟨pre, c, post, h1, h2, h3, h4⟩
  · rw [h1] at hit
    have hv0 : ¬ (0 ≥ v) := by
      intro hv0
      have hv0 : v = 0 := by omega
      subst hv0
      cases cs with
      | nil => exact h.ne rfl
      | cons c cs => have := h2 c (by simp); omega
    simp only [hit.base_nil, hit.has_next_nil, ok_bind, if_neg hv0]
    refine Gated.of_true ⟨chkAlignedAt_none (fun c hc => ?_), ?_⟩ rfl
    · have := h2 c hc; omega
    · rw [geq_none_of_lt]
      · exact fun y hy => nomatch hy
      · intro x hx
        obtain ⟨c, hc, hid, -⟩ := (mem_seqElems h.wf).mp hx
        have := h2 c hc
        omega
  · rw [h2] at hit hre
    have hcw : ChunksWF (c :: post) := hit.wf
    have hc := hcw.head
    have hcid := hc.1
    have hpw : ChunksWF pre := by
      have := h.wf
      rw [h1] at this
      exact ⟨(List.pairwise_append.mp this.1).1, fun d hd => this.2 d (by simp [hd])⟩
    have hg : geq v (seqElems cs) = geq v (seqElems (c :: post)) := by
      rw [h1]
      have : seqElems (pre ++ c :: post) = seqElems pre ++ seqElems (c :: post) := by simp [seqElems]
      rw [this, geq_append, geq_none_of_lt, Option.none_or]
      intro x hx
      obtain ⟨d, hd, hid, -⟩ := (mem_seqElems hpw).mp hx
      have := h3 d hd
      omega
    rw [h1] at hre
    have hal : ∀ y, v ≤ y → (chkAlignedAt y s.data cs ↔ chkAlignedAt y it.data (c :: post)) := by
      intro y hy
      have := chkAlignedAt_reach (v := y) hre (fun d hd => by have := h3 d hd; omega)
      rw [h1]; exact this
    have hle : ∀ y, geq v (seqElems (c :: post)) = some y → v ≤ y := by
      intro y hy
      have := List.find?_some hy
      simpa using this
    refine Gated.iff (P := chkAlignedAt v it.data (c :: post) ∧
      ∀ y, geq v (seqElems (c :: post)) = some y → chkAlignedAt y it.data (c :: post)) ?_ ?_
    rotate_left
    · rw [hg]
      refine and_congr (hal v (Nat.le_refl _)).symm (forall_congr' fun y => ?_)
      constructor
      · intro h hy; exact (hal y (hle y hy)).mpr (h hy)
      · intro h hy; exact (hal y (hle y hy)).mp (h hy)
    simp only [hit.base, hit.has_next, ok_bind, if_true]
    by_cases hb : c.id * 65536 ≥ v
    · rw [if_pos hb, if_pos hb]
      obtain ⟨x, hx⟩ := hc.head?_exists
      have hxb := hc.2.bound x (List.mem_of_head? hx)
      have hg' : geq v (seqElems (c :: post)) = some (c.id * 65536 + x) := by
        rw [geq_head_of_le, seqElems_head? hx]
        intro y hy
        obtain ⟨d, hd, hid, -⟩ := (mem_seqElems hcw).mp hy
        rcases List.mem_cons.mp hd with rfl | hd
        · omega
        · have := hcw.head_lt d hd; omega
      refine (chunk_min_aligned hev hit hx).iff ?_
      rw [hg']
      have hq := chkAlignedAt_head (v := c.id * 65536 + x) (dp := it.data) hcw (by omega)
      rw [show (c.id * 65536 + x) % 65536 = x by omega] at hq
      rw [← hq]
      constructor
      · intro hA
        refine ⟨?_, fun y hy => by cases hy; exact hA⟩
        by_cases hid : c.id = v / 65536
        · refine (chkAlignedAt_head hcw hid).mpr ?_
          have hA' := hq.mp hA
          have hv0 : v % 65536 = 0 := by omega
          -- the first block of the slice is the one of `v`, or that one does not exist
          cases hbd : c.body with
          | full => trivial
          | dense vs => rw [hbd] at hA'; exact hA'
          | sparse bs =>
            rw [hbd] at hA' hx
            have hbw := hc.2
            rw [hbd] at hbw
            obtain ⟨hne, hwf⟩ := hbw
            cases bs with
            | nil => exact absurd rfl hne
            | cons b bs =>
              obtain ⟨y, hy⟩ := hwf.head.head?_exists
              have hy256 := hwf.head.2.2.2 y (List.mem_of_head? hy)
              have hyx : x = b.id * 256 + y := by
                have := blkElems_head? (bs := bs) hy
                simp only [Body.vals] at hx
                rw [this] at hx
                cases hx; rfl
              have hA2 := (blkAlignedAt_head hwf (show b.id = x / 256 by omega)).mp hA'
              refine ⟨fun _ => hA2, blkAlignedAt_none (fun d hd => ?_)⟩
              have := hwf.head_lt d hd
              omega
        · refine chkAlignedAt_none (fun d hd => ?_)
          rcases List.mem_cons.mp hd with rfl | hd
          · exact hid
          · have := hcw.head_lt d hd; omega
      · intro hA
        exact hA.2 _ rfl
    · rw [if_neg hb, if_neg hb]
      have hcv : c.id = v / 65536 := by omega
      have hgc : geq v c.elems = (geq (v % 65536) c.body.vals).map (c.id * 65536 + ·) := by
        unfold Chk.elems
        rw [geq_map_add (by omega)]
        congr 2; omega
      have hK := next_geq_chunk_aligned (dbg := dbg) (v := v % 65536) hev hit (by omega)
      have hval := next_geq_chunk_value (dbg := dbg) (v := v % 65536) hit hit.at_.2.1 (by omega)
      have hhead := chkAlignedAt_head (v := v) (dp := it.data) hcw hcv
      -- the code after the chunk has been searched
      have hR : Gated (∀ y, geq v (seqElems (c :: post)) = some y → y / 65536 ≠ c.id →
            chkAlignedAt y it.data (c :: post))
          (if (geq (v % 65536) c.body.vals).getD not_found ≠ not_found then
            pure (u32 ((geq (v % 65536) c.body.vals).getD not_found + c.id * 65536))
          else do
            let it ← it.next m
            if it.has_next then chunk_minA dbg m it else pure not_found : Res Nat)
          (if (geq (v % 65536) c.body.vals).getD not_found ≠ not_found then
            pure (u32 ((geq (v % 65536) c.body.vals).getD not_found + c.id * 65536))
          else do
            let it ← it.next m
            if it.has_next then chunk_min dbg m it else pure not_found : Res Nat) := by
        rw [seqElems_cons, geq_append, hgc]
        cases hq : geq (v % 65536) c.body.vals with
        | some z =>
          have hz := hc.2.bound z (List.mem_of_find?_eq_some hq)
          simp only [Option.getD_some, Option.map_some, Option.some_or, not_found]
          rw [if_pos (by omega), if_pos (by omega)]
          refine Gated.of_true (fun y hy hne => ?_) rfl
          cases hy
          omega
        | none =>
          simp only [Option.getD_none, ne_eq, not_true_eq_false, if_false, Option.map_none,
            Option.none_or]
          obtain ⟨it', e', hit', -, -, -, hh', hd'⟩ := hit.next
          rw [e']
          simp only [ok_bind]
          cases post with
          | nil =>
            simp only [hit'.has_next_nil]
            exact Gated.of_true (fun y hy => nomatch hy) rfl
          | cons d post =>
            simp only [hit'.has_next, if_true]
            obtain ⟨x, hx⟩ := hcw.tail.head.head?_exists
            have hxb := hcw.tail.head.2.bound x (List.mem_of_head? hx)
            have hlt := hcw.head_lt d (by simp)
            have hg' : geq v (seqElems (d :: post)) = some (d.id * 65536 + x) := by
              rw [geq_head_of_le, seqElems_head? hx]
              intro y hy
              obtain ⟨d', hd, hid, -⟩ := (mem_seqElems hcw.tail).mp hy
              have := hcw.head_lt d' hd
              omega
            refine (chunk_min_aligned (by omega) hit' hx).iff ?_
            have hq := chkAlignedAt_head (v := d.id * 65536 + x) (dp := it'.data) hcw.tail (by omega)
            rw [show (d.id * 65536 + x) % 65536 = x by omega] at hq
            rw [hg', ← hq, hd']
            constructor
            · intro hA y hy _
              cases hy
              exact ⟨fun e => by omega, hA⟩
            · intro hA
              exact (hA _ rfl (by omega)).2
      rw [hval] at hK
      have hall := Gated.both hK (f := fun value => (if value ≠ not_found then
            pure (u32 (value + c.id * 65536))
          else do
            let it ← it.next m
            if it.has_next then chunk_minA dbg m it else pure not_found : Res Nat))
          (g := fun value => (if value ≠ not_found then
            pure (u32 (value + c.id * 65536))
          else do
            let it ← it.next m
            if it.has_next then chunk_min dbg m it else pure not_found : Res Nat)) hR
      have hplain : (do
          let value ← (do
            let t ← it.type m
            if t = type_sparse then do
              let blocks ← it.blocks m
              next_geq_sparse_chunk dbg m it.data blocks (v % 65536)
            else if t = type_dense then
              next_geq_bitmap (memWords m it.data) chunk_size_in_64bit_words (v % 65536)
            else if t = type_full then pure (v % 65536)
            else unreachable dbg : Res Nat)
          (if value ≠ not_found then pure (u32 (value + c.id * 65536))
          else do
            let it ← it.next m
            if it.has_next then chunk_min dbg m it else pure not_found : Res Nat))
          = (if (geq (v % 65536) c.body.vals).getD not_found ≠ not_found then
              pure (u32 ((geq (v % 65536) c.body.vals).getD not_found + c.id * 65536))
            else do
              let it ← it.next m
              if it.has_next then chunk_min dbg m it else pure not_found : Res Nat) := by
        rw [hval]; rfl
      rw [← hplain] at hall
      simp only [It.typeA_eq hev, It.blocksA_eq hev] at hall
      rw [hit.type] at hall ⊢
      simp only [ok_bind] at hall ⊢
      rw [hit.blocks] at hall ⊢
      simp only [ok_bind] at hall ⊢
      rw [← switch_bind, ← switch_bind] at hall
      refine hall.iff ?_
      rw [hhead]
      constructor
      · rintro ⟨⟨a1, a2⟩, a3⟩
        refine ⟨a1, fun y hy => ?_⟩
        by_cases hyc : y / 65536 = c.id
        · refine (chkAlignedAt_head hcw hyc.symm).mpr (a2 _ ?_)
          rw [seqElems_cons, geq_append, hgc] at hy
          cases hq : geq (v % 65536) c.body.vals with
          | some z =>
            have hz := hc.2.bound z (List.mem_of_find?_eq_some hq)
            rw [hq] at hy
            simp only [Option.map_some, Option.some_or, Option.some.injEq] at hy
            congr 1; omega
          | none =>
            rw [hq] at hy
            simp only [Option.map_none, Option.none_or] at hy
            obtain ⟨d', hd, hid, -⟩ := (mem_seqElems hcw.tail).mp (List.mem_of_find?_eq_some hy)
            have := hcw.head_lt d' hd
            omega
        · exact a3 y hy hyc
      · rintro ⟨a1, a2⟩
        refine ⟨⟨a1, fun z hz => ?_⟩, fun y hy _ => a2 y hy⟩
        have hzb := hc.2.bound z (List.mem_of_find?_eq_some hz)
        have hy : geq v (seqElems (c :: post)) = some (c.id * 65536 + z) := by
          rw [seqElems_cons, geq_append, hgc, hz]; rfl
        have := (chkAlignedAt_head hcw (show c.id = (c.id * 65536 + z) / 65536 by omega)).mp (a2 _ hy)
        rwa [show (c.id * 65536 + z) % 65536 = z by omega] at this

/-! ## The enumerator -/

theorem Enum.collect_aligned {dbg : Bool} {m : Mem} (fuel : Nat) {e : Enum} {c : Chk}
    {cs : List Chk} {r : List Nat} (hev : e.it.header % 2 = 0) (hit : ItOn 0 m e.it (c :: cs))
    (hch : e.chunk + 1 + cs.length = e.chunks) (hle : e.chunks ≤ 65536)
    (hcard : e.cardinality = c.card) (hi : e.i < c.card) (hn : e.has_next = true)
    (hr : Enum.collect dbg m fuel e = .ok r) :
    (chunksAligned (e.it.data + c.body.off) cs → Enum.collectA dbg m fuel e = .ok r) ∧
    (¬ chunksAligned (e.it.data + c.body.off) cs → Enum.collectA dbg m fuel e = .error .ub) := by
  induction fuel generalizing e c cs r with
  | zero => cases hr
  | succ fuel ih =>
    have hcl := hit.wf.head.card_le
    unfold Enum.collect at hr
    unfold Enum.collectA
    rw [if_pos hn] at hr ⊢
    obtain ⟨v, ev, hr⟩ := bind_ok hr
    obtain ⟨e', en, hr⟩ := bind_ok hr
    obtain ⟨r', er, hr⟩ := bind_ok hr
    rw [ev]
    simp only [ok_bind]
    have hu : u32 (e.i + 1) = e.i + 1 := u32_lt (by omega)
    have huc : u32 (e.chunk + 1) = e.chunk + 1 := u32_lt (by omega)
    unfold Enum.next at en
    unfold Enum.nextA
    simp only [hu, huc, hcard] at en ⊢
    by_cases h1 : e.i + 1 = c.card
    · rw [if_pos h1] at en ⊢
      cases cs with
      | nil =>
        have h2 : e.chunk + 1 = e.chunks := by simpa using hch
        rw [if_pos h2] at en ⊢
        cases en
        refine ⟨fun _ => ?_, fun hA => absurd trivial hA⟩
        simp only [pure_ok, ok_bind]
        cases fuel with
        | zero => cases er
        | succ fuel =>
          unfold Enum.collect at er
          unfold Enum.collectA
          simp only [Bool.false_eq_true, if_false] at er ⊢
          cases er
          exact hr
      | cons d cs =>
        have h2 : ¬ e.chunk + 1 = e.chunks := by
          simp only [List.length_cons] at hch; omega
        rw [if_neg h2] at en ⊢
        obtain ⟨it', e1, hit', -, -, -, hh', hd'⟩ := hit.next
        have hev' : it'.header % 2 = 0 := by omega
        rw [It.nextA_eq hev, e1]
        rw [e1] at en
        simp only [ok_bind, It.cardinalityA_eq hev', hit'.cardinality] at en ⊢
        obtain ⟨⟨k, o⟩, ed, en⟩ := bind_ok en
        obtain ⟨k1, k2⟩ := decode_chunk_aligned hev' hit' ed
        cases en
        have hI := ih (e := ⟨it', e.chunk + 1, e.chunks, 0, d.card, e.past_the_end, e.has_next, o⟩)
          hev' hit' (by simp only [List.length_cons] at hch ⊢; omega) hle rfl
          hit'.wf.head.card_pos hn er
        rw [← hd']
        constructor
        · intro hA
          rw [k1 hA.1]
          simp only [ok_bind, pure_ok]
          rw [hI.1 hA.2]
          rw [er] at hr
          exact hr
        · intro hA
          by_cases hb : bodyAligned it'.data d.body
          · rw [k1 hb]
            simp only [ok_bind, pure_ok]
            rw [hI.2 (fun hc => hA ⟨hb, hc⟩)]
            rfl
          · rw [k2 hb]; rfl
    · rw [if_neg h1] at en ⊢
      cases en
      have hI := ih (e := { e with i := e.i + 1, cardinality := c.card }) hev hit hch hle rfl
        (by simp only; omega) hn er
      simp only [pure_ok, ok_bind]
      rw [er] at hr
      exact ⟨fun hA => by rw [hI.1 hA]; exact hr, fun hA => by rw [hI.2 hA]; rfl⟩

/-- constructing an enumerator on a sequence and running it to the end -/
theorem Enum.run_aligned {dbg : Bool} {m : Mem} {s : SSeq} {cs : List Chk} {buf r : List Nat}
    {pte fuel : Nat} {e : Enum} (hh : s.header % 2 = 0) (h : SeqAt 0 m s cs)
    (hi : Enum.init dbg m buf s pte = .ok e) (hr : Enum.collect dbg m fuel e = .ok r) :
    (chunksAligned s.data cs →
      (do let e ← Enum.initA dbg m buf s pte; Enum.collectA dbg m fuel e) = .ok r) ∧
    (¬ chunksAligned s.data cs →
      (do let e ← Enum.initA dbg m buf s pte; Enum.collectA dbg m fuel e) = .error .ub) := by
  cases cs with
  | nil => exact absurd rfl h.ne
  | cons c cs =>
    have hit := h.begin
    have hchk := h.chunks
    have hlen := h.wf.length_le
    have hev : s.begin.header % 2 = 0 := hh
    unfold Enum.init at hi
    unfold Enum.initA
    simp only [It.cardinalityA_eq hev, hit.cardinality, ok_bind] at hi ⊢
    obtain ⟨⟨k, o⟩, ed, hi⟩ := bind_ok hi
    cases hi
    obtain ⟨k1, k2⟩ := decode_chunk_aligned hev hit ed
    have hI := Enum.collect_aligned fuel (c := c) (cs := cs)
      (e := ⟨s.begin, 0, s.chunks, 0, c.card, pte, true, o⟩) hev hit
      (by rw [hchk]; simp only [List.length_cons]; omega) (by simp only [hchk]; omega) rfl
      hit.wf.head.card_pos rfl hr
    constructor
    · intro hA
      rw [k1 hA.1]
      simp only [ok_bind, pure_ok]
      exact hI.1 hA.2
    · intro hA
      by_cases hb : bodyAligned s.begin.data c.body
      · rw [k1 hb]
        simp only [ok_bind, pure_ok]
        exact hI.2 (fun hc => hA ⟨hb, hc⟩)
      · rw [k2 hb]; rfl

end Sliced
