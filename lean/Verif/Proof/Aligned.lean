import Verif.Model.Aligned
import Verif.Proof.Tail
import Verif.Proof.Ends
/-! # decode with checked alignment: the same result, or undefined -/
namespace Sliced

theorem rd16a_even {m : Mem} {a : Nat} (h : a % 2 = 0) : rd16a m a = rd16 m a := by
  unfold rd16a; rw [if_pos h]

theorem rd16a_odd {m : Mem} {a : Nat} (h : ¬ a % 2 = 0) : rd16a m a = .error .ub := by
  unfold rd16a; rw [if_neg h]

theorem memWordsA_aligned {m : Mem} {p : Nat} (h : p % 8 = 0) : memWordsA m p = memWords m p := by
  funext i
  unfold memWordsA memWords
  rw [if_pos (by omega)]

theorem decode_bitmap_misaligned {m : Mem} {dp n base p : Nat} {out : List Nat} (h : ¬ dp % 8 = 0)
    (hn : 1 ≤ n) : decode_bitmap (memWordsA m dp) n base out p = .error .ub := by
  obtain ⟨k, rfl⟩ : ∃ k, n = k + 1 := ⟨n - 1, by omega⟩
  unfold decode_bitmap decode_bitmap_loop
  rw [show memWordsA m dp 0 = .error .ub by unfold memWordsA; rw [if_neg (by omega)]]
  rfl

/-- the bitmaps among the blocks are at multiples of 8 -/
def blocksAligned : Nat → List Blk → Prop
  | _, [] => True
  | dp, b :: bs => (31 ≤ b.vals.length → dp % 8 = 0) ∧ blocksAligned (dp + b.size) bs

theorem decode_sparse_chunk_loop_aligned {m : Mem} {base end_ : Nat} {bs : List Blk} (f : Nat)
    {hp dp p : Nat} {out : List Nat} {r : Nat × List Nat} (hw : BlocksWF bs)
    (h : BlocksAt 0 m hp dp bs) (he : hp + 2 * bs.length = end_) (hf : bs.length < f)
    (hr : decode_sparse_chunk_loop m base end_ f hp dp out p = .ok r) :
    (blocksAligned dp bs → decode_sparse_chunk_loopA m base end_ f hp dp out p = .ok r) ∧
    (¬ blocksAligned dp bs → decode_sparse_chunk_loopA m base end_ f hp dp out p = .error .ub) := by
  induction bs generalizing f hp dp p out with
  | nil =>
    obtain ⟨f, rfl⟩ : ∃ g, f = g + 1 := ⟨f - 1, by simp at hf; omega⟩
    simp only [List.length_nil, Nat.mul_zero, Nat.add_zero] at he
    unfold decode_sparse_chunk_loop at hr
    unfold decode_sparse_chunk_loopA
    rw [if_pos he] at hr ⊢
    exact ⟨fun _ => hr, fun hn => absurd trivial hn⟩
  | cons b bs ih =>
    obtain ⟨f, rfl⟩ : ∃ g, f = g + 1 := ⟨f - 1, by simp at hf; omega⟩
    simp only [List.length_cons] at he hf
    obtain ⟨g1, g2, g3, g4⟩ := h
    have hc1 := hw.head.card_pos
    have hne : ¬ hp = end_ := by omega
    have hcc : b.vals.length - 1 + 1 = b.vals.length := by omega
    unfold decode_sparse_chunk_loop at hr
    unfold decode_sparse_chunk_loopA blocksAligned
    simp only [if_neg hne, g1, g2, ok_bind, hcc] at hr ⊢
    by_cases hc : b.vals.length < 31
    · have hsz : b.size = b.vals.length := by unfold Blk.size bytes_by_cardinality; rw [if_pos hc]
      simp only [if_pos hc] at hr ⊢
      obtain ⟨⟨n, o⟩, e, hr⟩ := bind_ok hr
      rw [e]
      simp only [ok_bind]
      rw [← hsz] at hr ⊢
      obtain ⟨k1, k2⟩ := ih f hw.tail g4 (by omega) (by omega) hr
      exact ⟨fun hA => k1 hA.2, fun hA => k2 (fun hB => hA ⟨fun h => absurd h (by omega), hB⟩)⟩
    · have hsz : b.size = 32 := by unfold Blk.size bytes_by_cardinality; rw [if_neg hc]
      simp only [if_neg hc] at hr ⊢
      by_cases hal : dp % 8 = 0
      · obtain ⟨⟨n, o⟩, e, hr⟩ := bind_ok hr
        rw [memWordsA_aligned hal, e]
        simp only [ok_bind]
        rw [← hsz] at hr ⊢
        obtain ⟨k1, k2⟩ := ih f hw.tail g4 (by omega) (by omega) hr
        exact ⟨fun hA => k1 hA.2, fun hA => k2 (fun hB => hA ⟨fun _ => hal, hB⟩)⟩
      · refine ⟨fun hA => absurd (hA.1 (by omega)) hal, fun _ => ?_⟩
        rw [decode_bitmap_misaligned hal (by decide)]
        rfl

/-- the bitmaps of a chunk are at multiples of 8 -/
def bodyAligned (dp : Nat) : Body → Prop
  | .full => True
  | .dense _ => dp % 8 = 0
  | .sparse bs => blocksAligned (dp + 2 * bs.length) bs

theorem decode_chunk_aligned {dbg : Bool} {m : Mem} {it : It} {c : Chk} {cs : List Chk}
    {p : Nat} {out : List Nat} {r : Nat × List Nat} (hh : it.header % 2 = 0)
    (h : ItOn 0 m it (c :: cs)) (hr : decode_chunk dbg m it out p = .ok r) :
    (bodyAligned it.data c.body → decode_chunkA dbg m it out p = .ok r) ∧
    (¬ bodyAligned it.data c.body → decode_chunkA dbg m it out p = .error .ub) := by
  have hw := h.wf.head
  have hbody : BodyAt _ _ _ _ := h.at_.2.1
  have e1 : it.idA m = it.id m := by unfold It.idA It.id; rw [rd16a_even hh]
  have e2 : it.typeA m = it.type m := by unfold It.typeA It.type; rw [rd16a_even (by omega)]
  have e3 : it.blocksA m = it.blocks m := by unfold It.blocksA It.blocks; rw [rd16a_even (by omega)]
  unfold decode_chunk at hr
  unfold decode_chunkA
  rw [e1, e2, e3]
  simp only [h.id, ok_bind] at hr ⊢
  cases hb : c.body with
  | full =>
    rw [h.type_full hb] at hr ⊢
    simp only [ok_bind] at hr ⊢
    refine ⟨fun _ => ?_, fun hn => absurd trivial hn⟩
    simpa [type_sparse, type_dense] using hr
  | dense vs =>
    rw [h.type_dense hb] at hr ⊢
    simp only [ok_bind] at hr ⊢
    unfold bodyAligned
    simp only [type_sparse, type_dense] at hr ⊢
    simp only [show ¬ (3 : Nat) = 1 by decide, if_false, if_true] at hr ⊢
    constructor
    · intro hA
      rw [memWordsA_aligned hA]; exact hr
    · intro hA
      exact decode_bitmap_misaligned hA (by decide)
  | sparse bs =>
    rw [h.type_sparse hb] at hr ⊢
    rw [h.blocks_sparse hb] at hr ⊢
    simp only [ok_bind, type_sparse, if_true] at hr ⊢
    rw [hb] at hbody
    have hbw := hw.2
    rw [hb] at hbw
    unfold decode_sparse_chunk at hr
    unfold decode_sparse_chunkA bodyAligned
    obtain ⟨_, e, hr⟩ := bind_ok hr
    rw [e]
    simp only [ok_bind]
    obtain ⟨⟨t, o⟩, e', hr⟩ := bind_ok hr
    obtain ⟨k1, k2⟩ := decode_sparse_chunk_loop_aligned (bs := bs) (bs.length + 1) (hp := it.data)
      (dp := it.data + bs.length * 2) hbw.2
      (by rw [show it.data + bs.length * 2 = it.data + 2 * bs.length by omega]; exact hbody)
      (by omega) (by omega) e'
    rw [show it.data + 2 * bs.length = it.data + bs.length * 2 by omega]
    constructor
    · intro hA
      rw [k1 hA]; exact hr
    · intro hA
      rw [k2 hA]; rfl

/-- the bitmaps of all chunks are at multiples of 8 -/
def chunksAligned : Nat → List Chk → Prop
  | _, [] => True
  | dp, c :: cs => bodyAligned dp c.body ∧ chunksAligned (dp + c.body.off) cs

theorem decode_loop_aligned {dbg : Bool} {m : Mem} {cs : List Chk} {it : It} {p : Nat}
    {out : List Nat} {r : Nat × List Nat} (hh : it.header % 2 = 0) (h : ItOn 0 m it cs)
    (hr : decode_loop dbg m cs.length it out p = .ok r) :
    (chunksAligned it.data cs → decode_loopA dbg m cs.length it out p = .ok r) ∧
    (¬ chunksAligned it.data cs → decode_loopA dbg m cs.length it out p = .error .ub) := by
  induction cs generalizing it p out with
  | nil => exact ⟨fun _ => hr, fun hn => absurd trivial hn⟩
  | cons c cs ih =>
    rw [List.length_cons] at hr ⊢
    unfold decode_loop at hr
    unfold decode_loopA chunksAligned
    obtain ⟨⟨k, o⟩, e, hr⟩ := bind_ok hr
    obtain ⟨k1, k2⟩ := decode_chunk_aligned hh h e
    obtain ⟨it', e2, g2, -, -, -, hd', hd⟩ := h.next
    have e3 : it.nextA m = it.next m := by
      unfold It.nextA It.next It.offset; rw [rd16a_even (by omega)]
    rw [e2] at hr
    simp only [ok_bind] at hr
    obtain ⟨j1, j2⟩ := ih (by omega) g2 hr
    rw [hd] at j1 j2
    constructor
    · intro hA
      rw [k1 hA.1]
      simp only [ok_bind, e3, e2]
      exact j1 hA.2
    · intro hA
      by_cases hb : bodyAligned it.data c.body
      · rw [k1 hb]
        simp only [ok_bind, e3, e2]
        exact j2 (fun hc => hA ⟨hb, hc⟩)
      · rw [k2 hb]; rfl

theorem SSeq.decode_aligned {dbg : Bool} {m : Mem} {s : SSeq} {cs : List Chk} {out : List Nat}
    {p : Nat} {r : Nat × List Nat} (hh : s.header % 2 = 0) (h : SeqAt 0 m s cs)
    (hr : s.decode dbg m out p = .ok r) :
    (chunksAligned s.data cs → s.decodeA dbg m out p = .ok r) ∧
    (¬ chunksAligned s.data cs → s.decodeA dbg m out p = .error .ub) := by
  unfold SSeq.decode at hr
  unfold SSeq.decodeA
  rw [h.chunks] at hr ⊢
  obtain ⟨⟨q, o⟩, e, hr⟩ := bind_ok hr
  obtain ⟨k1, k2⟩ := decode_loop_aligned hh h.begin e
  exact ⟨fun hA => by rw [k1 hA]; exact hr, fun hA => by rw [k2 hA]; rfl⟩

end Sliced
