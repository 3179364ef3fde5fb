import Verif.Proof.Iter
import Verif.Proof.Contains
import Verif.Model.Select
/-! # select.hpp -/
namespace Sliced

theorem pdepLoop_done {r mask : Nat} (n b k dst : Nat) (h : r < k) :
    pdepLoop (2 ^ r) mask n b k dst = dst := by
  induction n generalizing b k with
  | zero => rfl
  | succ n ih =>
    unfold pdepLoop
    have hk : (2 ^ r).testBit k = false := by
      rw [Nat.testBit_two_pow]; simp; omega
    rw [hk]
    split
    · simpa using ih (b + 1) (k + 1) (by omega)
    · exact ih (b + 1) k h

theorem pdepLoop_spec {r mask : Nat} (n b k : Nat) (h : k ≤ r) {x : Nat}
    (hx : ((List.range' b n).filter (fun j => mask.testBit j))[r - k]? = some x) :
    pdepLoop (2 ^ r) mask n b k 0 = 2 ^ x := by
  induction n generalizing b k with
  | zero => simp at hx
  | succ n ih =>
    rw [List.range'_succ, List.filter_cons] at hx
    unfold pdepLoop
    by_cases hb : mask.testBit b
    · rw [if_pos hb] at hx ⊢
      by_cases hk : k = r
      · subst hk
        rw [Nat.sub_self, List.getElem?_cons_zero] at hx
        cases hx
        rw [Nat.testBit_two_pow_self, if_pos rfl, pdepLoop_done _ _ _ _ (by omega)]
        simp
      · have hk' : (2 ^ r).testBit k = false := by
          rw [Nat.testBit_two_pow]; simp; omega
        rw [hk']
        rw [show r - k = (r - (k + 1)) + 1 by omega, List.getElem?_cons_succ] at hx
        simpa using ih (b + 1) (k + 1) (by omega) hx
    · rw [if_neg hb] at hx ⊢
      exact ih (b + 1) k h hx

theorem tzcnt_two_pow {x : Nat} (hx : x < 64) : tzcnt (2 ^ x) = x := by
  unfold tzcnt
  have : (List.range 64).find? (fun j => (2 ^ x).testBit j) = some x := by
    rw [List.find?_range_eq_some]
    refine ⟨Nat.testBit_two_pow_self, List.mem_range.mpr hx, ?_⟩
    intro j hj
    rw [Nat.testBit_two_pow]
    simp; omega
  rw [this]; rfl

theorem pdep_select {w r x : Nat} (hx : (bitsOf w)[r]? = some x) : tzcnt (pdep (2 ^ r) w) = x := by
  unfold pdep
  rw [pdepLoop_spec 64 0 0 (by omega) (x := x) (by
    rw [← List.range_eq_range']; exact hx)]
  have : x ∈ bitsOf w := List.mem_of_getElem? hx
  exact tzcnt_two_pow (mem_bitsOf.mp this).1

theorem popcount_eq (w : Nat) : popcount w = (bitsOf w).length := rfl

theorem select_bitmap_loop_spec {dbg : Bool} {W : Words} {P : Nat → Bool} {rank : Nat} (n i : Nat)
    {el x : Nat} (hW : BitsAt W (i + n) P) (hb : 64 * (i + n) ≤ 65536) (hel : el ≤ rank)
    (hle : el ≤ 64 * i) (hrank : rank < 4294967296)
    (hx : ((List.range' (64 * i) (64 * n)).filter P)[rank - el]? = some x) :
    select_bitmap_loop dbg W rank n i el = .ok x := by
  induction n generalizing i el with
  | zero => simp at hx
  | succ n ih =>
    obtain ⟨w, e1, hw, hbits⟩ := hW i (by omega)
    have hr := bitsOf_range' hbits 0
    simp only [Nat.zero_add] at hr
    rw [show ((List.range' (64 * i) 64).filter P).map (fun x => x)
      = (List.range' (64 * i) 64).filter P from List.map_id' _] at hr
    have hpl : popcount w ≤ 64 := bitsOf_length_le w
    have hlen : ((List.range' (64 * i) 64).filter P).length = popcount w := by
      rw [← hr, List.length_map]; rfl
    rw [range'_split, List.filter_append] at hx
    unfold select_bitmap_loop
    simp only [e1, ok_bind]
    rw [u32_lt (by omega)]
    by_cases hgt : el + popcount w > rank
    · rw [if_pos hgt, cassert_of (by simpa using hel)]
      simp only [ok_bind]
      rw [sub32_eq hrank hel, if_neg (by omega)]
      rw [List.getElem?_append_left (by omega), ← hr, List.getElem?_map] at hx
      obtain ⟨y, hy, rfl⟩ := Option.map_eq_some_iff.mp hx
      have hy64 := (mem_bitsOf.mp (List.mem_of_getElem? hy)).1
      simp only [pure_ok]
      rw [pdep_select hy, u32_lt (x := i * 64) (by omega), u32_lt (by omega)]
      congr 1; omega
    · rw [if_neg hgt]
      rw [List.getElem?_append_right (by omega), hlen] at hx
      by_cases hn : n = 0
      · subst hn; simp at hx
      refine ih (i + 1) (by rw [show i + 1 + n = i + (n + 1) by omega]; exact hW) (by omega)
        (by omega) (by omega) ?_
      rw [show rank - (el + popcount w) = rank - el - popcount w by omega]; exact hx

theorem select_bitmap_spec {dbg : Bool} {W : Words} {P : Nat → Bool} {rank n x : Nat}
    (hW : BitsAt W n P) (hb : 64 * n ≤ 65536)
    (hx : ((List.range (64 * n)).filter P)[rank]? = some x) :
    select_bitmap dbg W n rank = .ok x := by
  have hr : rank < 4294967296 := by
    have h1 := (List.getElem?_eq_some_iff.mp hx).1
    have h2 := List.length_filter_le P (List.range (64 * n))
    rw [List.length_range] at h2; omega
  unfold select_bitmap
  apply select_bitmap_loop_spec n 0 (by simpa using hW) (by simpa using hb) (by omega) (by omega) hr
  rw [List.range_eq_range'] at hx
  simpa using hx

theorem blk_select_spec {dbg : Bool} {pad : Nat} {m : Mem} {dp r x : Nat} {b : Blk} (hw : b.WF)
    (h : BlkAt pad m dp b) (hx : b.vals[r]? = some x) :
    (if b.vals.length < 31 then rd8 m (dp + r)
      else select_bitmap dbg (memWords m dp) block_size_in_64bit_words r) = .ok x := by
  unfold BlkAt at h
  by_cases hc : b.vals.length < 31
  · rw [if_pos hc] at h ⊢
    exact h.1 r x hx
  · rw [if_neg hc] at h ⊢
    apply select_bitmap_spec h (by omega)
    have hf := filter_range_mem (n := 64 * 4) hw.2.2.1 hw.2.2.2
    rw [hf]; exact hx

theorem select_sparse_chunk_loop_block {dbg : Bool} {pad : Nat} {m : Mem} {rank end_ : Nat}
    {bs : List Blk} (f : Nat) {hp dp el x : Nat} (hw : BlocksWF bs)
    (h : BlockAt pad m (x / 256) hp dp bs) (he : hp + 2 * bs.length = end_) (hf : bs.length < f)
    (hel : el ≤ rank) (htot : el + (blkElems bs).length < 4294967296)
    (hx : (blkElems bs)[rank - el]? = some x) :
    select_sparse_chunk_loop dbg m rank end_ f hp dp el = .ok x := by
  induction bs generalizing f hp dp el with
  | nil => simp at hx
  | cons b bs ih =>
    obtain ⟨f, rfl⟩ : ∃ g, f = g + 1 := ⟨f - 1, by simp at hf; omega⟩
    simp only [List.length_cons] at he hf
    obtain ⟨h1, h2, h3, h4⟩ := h
    have hbw := hw.head
    have hid := hbw.1
    have hc1 := hbw.card_pos
    have hcl := hbw.card_le
    have hcc : b.vals.length - 1 + 1 = b.vals.length := by omega
    have hne : ¬ hp = end_ := by omega
    have hlen := (List.getElem?_eq_some_iff.mp hx).1
    rw [blkElems_cons, List.length_append, Blk.elems_length] at htot hlen
    unfold select_sparse_chunk_loop
    simp only [if_neg hne, h1, h2, ok_bind, hcc]
    rw [u32_lt (x := el + b.vals.length) (by omega)]
    rw [blkElems_cons] at hx
    by_cases hgt : el + b.vals.length > rank
    · rw [if_pos hgt, sub32_eq (by omega) hel, cassert_of (by simp; omega)]
      simp only [ok_bind]
      rw [List.getElem?_append_left (by rw [Blk.elems_length]; omega)] at hx
      unfold Blk.elems at hx
      rw [List.getElem?_map] at hx
      obtain ⟨y, hy, rfl⟩ := Option.map_eq_some_iff.mp hx
      have hy256 := hbw.2.2.2 y (List.mem_of_getElem? hy)
      have hs := blk_select_spec (dbg := dbg) hbw (h3 (by omega)) hy
      by_cases hc : b.vals.length < 31
      · rw [if_pos hc] at hs ⊢
        rw [hs]; simp only [ok_bind, pure_ok]
        rw [u32_lt (by omega), Nat.add_comm]
      · rw [if_neg hc] at hs ⊢
        rw [hs]; simp only [ok_bind, pure_ok]
        rw [u32_lt (by omega), Nat.add_comm]
    · rw [if_neg hgt]
      rw [List.getElem?_append_right (by rw [Blk.elems_length]; omega), Blk.elems_length] at hx
      have := ih f hw.tail h4 (by omega) (by omega) (el := el + b.vals.length) (by omega) (by omega)
        (by rw [show rank - (el + b.vals.length) = rank - el - b.vals.length by omega]; exact hx)
      unfold Blk.size bytes_by_cardinality at this
      exact this

theorem select_chunk_value {dbg : Bool} {B : Nat → Chk → Prop} {pad : Nat} {m : Mem} {it : It}
    {c : Chk} {cs : List Chk} {r x : Nat} (h : ItOnP B m it (c :: cs))
    (hbody : BodyFor pad m x it.data c.body) (hx : c.body.vals[r]? = some x) :
    (do
      let t ← it.type m
      if t = type_sparse then do
        let blocks ← it.blocks m
        select_sparse_chunk dbg m it.data blocks r
      else if t = type_dense then
        select_bitmap dbg (memWords m it.data) chunk_size_in_64bit_words r
      else if t = type_full then pure r
      else unreachable dbg : Res Nat) = .ok x := by
  have hw := h.wf.head
  have hbw := hw.2
  cases hb : c.body with
  | full =>
    rw [h.type_full hb]
    rw [hb] at hx
    simp only [Body.vals] at hx
    have hx' : x = r := by
      have h1 := (List.getElem?_eq_some_iff.mp hx).1
      have h2 : r < 65536 := by rw [List.length_range] at h1; exact h1
      rw [List.getElem?_range h2] at hx
      cases hx; rfl
    simp [type_sparse, type_dense, type_full, hx']
  | dense vs =>
    rw [h.type_dense hb]
    rw [hb] at hbody hx hbw
    replace hbody : BitsAt (memWords m it.data) 1024 (fun x => decide (x ∈ vs)) := hbody
    have := select_bitmap_spec (dbg := dbg) (rank := r) (x := x) hbody (by omega) (by
      rw [filter_range_mem (n := 64 * 1024) hbw.2.1 hbw.2.2]; exact hx)
    simp only [ok_bind, type_sparse, if_true, Nat.reduceEqDiff, if_false]
    exact this
  | sparse bs =>
    rw [h.type_sparse hb, h.blocks_sparse hb]
    rw [hb] at hbody hbw hx
    have h1 := List.length_pos_iff.mpr hbw.1
    have h2 := hbw.2.length_le
    have h3 := sorted_length_le' hbw.2.sorted hbw.2.bound
    simp only [ok_bind, if_true, select_sparse_chunk]
    rw [cassert_of (by simp; omega)]
    simp only [ok_bind]
    rw [show it.data + bs.length * 2 = it.data + 2 * bs.length by omega]
    have hxb : x < 65536 := hbw.2.bound x (List.mem_of_getElem? hx)
    replace hbody : BlockAt pad m (x % 65536 / 256) it.data (it.data + 2 * bs.length) bs := hbody
    rw [show x % 65536 = x by omega] at hbody
    exact select_sparse_chunk_loop_block _ hbw.2 hbody rfl (by omega) (by omega) (by omega) hx

theorem seqElems_append (a b : List Chk) : seqElems (a ++ b) = seqElems a ++ seqElems b := by
  simp [seqElems]

theorem BodyFor.congr {pad : Nat} {m : Mem} {v w dp : Nat} {b : Body} (h : v % 65536 = w % 65536) :
    BodyFor pad m v dp b = BodyFor pad m w dp b := by
  cases b <;> simp only [BodyFor, h]

/-- Only the data of the slice of the selected element matters. -/
theorem SSeq.select_specF {dbg : Bool} {B : Nat → Chk → Prop} {pad : Nat} {m : Mem} {s : SSeq}
    {cs : List Chk} (h : SeqAtP B m s cs) {r : Nat} (hr : r < 4294967296) (v : Nat)
    (hB : ∀ dp c x, (seqElems cs)[r]? = some x → c.id = x / 65536 → B dp c →
      BodyFor pad m x dp c.body) :
    s.select dbg m r v = .ok (match (seqElems cs)[r]? with
      | some x => (true, x)
      | none => (false, v)) := by
  unfold SSeq.select
  obtain ⟨it, k, e, hit, hk, -, hl⟩ := It.skip_to_position_spec (rank := r) h.begin h.ptrs
  simp only [e, ok_bind]
  have hsplit : seqElems cs = seqElems (cs.take k) ++ seqElems (cs.drop k) := by
    rw [← seqElems_append, List.take_append_drop]
  have hlt := seqElems_length (cs.take k)
  cases hd : cs.drop k with
  | nil =>
    rw [hd] at hit
    rw [hit.has_next_nil]
    have : (seqElems cs)[r]? = none := by
      rw [List.getElem?_eq_none_iff, hsplit, hd, List.length_append, hlt]; simp; omega
    simp [this]
  | cons c post =>
    rw [hd] at hit hl
    have hc := hl c rfl
    rw [hit.has_next]
    have hcw := hit.wf.head
    have hcl := hcw.card_le
    have hid := hcw.1
    simp only [if_true]
    rw [sub32_eq hr hk, cassert_of (by simp only [chunk_size, decide_eq_true_eq]; omega)]
    simp only [ok_bind]
    have hlen : r - cardSum (cs.take k) < c.body.vals.length := by
      have : c.card = c.body.vals.length := rfl
      omega
    have hx := List.getElem?_eq_getElem hlen
    have hxb := hcw.2.bound _ (List.mem_of_getElem? hx)
    have hget : (seqElems cs)[r]? = some (c.id * 65536 + c.body.vals[r - cardSum (cs.take k)]) := by
      rw [hsplit, hd, List.getElem?_append_right (by omega), hlt, seqElems_cons,
        List.getElem?_append_left (by rw [Chk.elems_length]; exact hlen)]
      unfold Chk.elems
      rw [List.getElem?_map, hx]; rfl
    have hbf := hB _ _ _ hget (by omega) hit.at_.2.1
    rw [BodyFor.congr (by omega : (c.id * 65536 + c.body.vals[r - cardSum (cs.take k)]) % 65536
      = c.body.vals[r - cardSum (cs.take k)] % 65536)] at hbf
    have hv := select_chunk_value (dbg := dbg) hit hbf hx
    rw [hget]
    have hfin : u32 (c.body.vals[r - cardSum (cs.take k)] + u32 (c.id * 65536))
        = c.id * 65536 + c.body.vals[r - cardSum (cs.take k)] := by
      rw [u32_lt (x := c.id * 65536) (by omega), u32_lt (by omega), Nat.add_comm]
    rw [hit.type] at hv ⊢
    simp only [ok_bind] at hv ⊢
    split at hv <;> rename_i ht1
    · rw [hit.blocks] at hv ⊢
      simp only [ok_bind] at hv ⊢
      rw [if_pos ht1, hv]; simp only [ok_bind, hit.id, pure_ok, hfin]
    · rw [if_neg ht1]
      split at hv <;> rename_i ht2
      · rw [if_pos ht2, hv]; simp only [ok_bind, hit.id, pure_ok, hfin]
      · rw [if_neg ht2]
        split at hv <;> rename_i ht3
        · rw [if_pos ht3, hv]; simp only [ok_bind, hit.id, pure_ok, hfin]
        · rw [if_neg ht3, hv]; simp only [ok_bind, hit.id, pure_ok, hfin]

theorem SSeq.select_specP {dbg : Bool} {B : Nat → Chk → Prop} {pad : Nat} {m : Mem} {s : SSeq}
    {cs : List Chk} (h : SeqAtP B m s cs) {r : Nat} (hr : r < 4294967296) (v : Nat)
    (hB : ∀ dp c x, (seqElems cs)[r]? = some x → c.id = x / 65536 → B dp c →
      BodyAt pad m dp c.body) :
    s.select dbg m r v = .ok (match (seqElems cs)[r]? with
      | some x => (true, x)
      | none => (false, v)) := by
  exact SSeq.select_specF h hr v (fun dp c x hx hc hb => (hB dp c x hx hc hb).for)

theorem SSeq.select_spec {dbg : Bool} {pad : Nat} {m : Mem} {s : SSeq} {cs : List Chk}
    (h : SeqAt pad m s cs) {r : Nat} (hr : r < 4294967296) (v : Nat) :
    s.select dbg m r v = .ok (match (seqElems cs)[r]? with
      | some x => (true, x)
      | none => (false, v)) :=
  SSeq.select_specP h hr v (fun _ _ _ _ _ hb => hb)

end Sliced
