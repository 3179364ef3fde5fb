import Verif.Proof.Iter
import Verif.Model.Contains
/-! # contains.hpp -/
namespace Sliced

theorem sparse_block_contains_loop_spec {m : Mem} {begin value : Nat} {vals : List Nat}
    (hs : vals.Pairwise (· < ·)) (h : ∀ (i v : Nat), vals[i]? = some v → rd8 m (begin + i) = .ok v)
    (n i : Nat) (hn : i + n = vals.length) :
    sparse_block_contains_loop m begin value n i = .ok (decide (value ∈ vals.drop i)) := by
  induction n generalizing i with
  | zero =>
    rw [List.drop_eq_nil_of_le (by omega)]
    simp [sparse_block_contains_loop]
  | succ n ih =>
    have hi : i < vals.length := by omega
    have hx := h i _ (List.getElem?_eq_getElem hi)
    simp only [sparse_block_contains_loop, hx, ok_bind, pure_ok]
    have hd := List.drop_eq_getElem_cons hi
    by_cases h1 : vals[i] > value
    · rw [if_pos h1]
      congr 1
      symm
      rw [decide_eq_false_iff_not, hd, List.mem_cons]
      rintro (h2 | h2)
      · omega
      · have hp := hs.sublist (List.drop_sublist i vals)
        rw [hd, List.pairwise_cons] at hp
        have := hp.1 _ h2
        omega
    · rw [if_neg h1]
      by_cases h2 : vals[i] = value
      · rw [if_pos h2]
        congr 1
        symm
        rw [decide_eq_true_iff, hd, h2]
        simp
      · rw [if_neg h2, ih (i + 1) (by omega)]
        congr 1
        rw [hd]
        simp only [List.mem_cons]
        have : ¬ value = vals[i] := fun h => h2 h.symm
        simp [this]

theorem blk_contains_spec {pad : Nat} {m : Mem} {dp value : Nat} {b : Blk} (hw : b.WF)
    (h : BlkAt pad m dp b) (hv : value < 256) :
    (if b.vals.length < 31 then sparse_block_contains m dp b.vals.length value
      else bitmap_contains (memWords m dp) value) = .ok (decide (value ∈ b.vals)) := by
  unfold BlkAt at h
  by_cases hc : b.vals.length < 31
  · rw [if_pos hc] at h ⊢
    unfold sparse_block_contains
    simpa using sparse_block_contains_loop_spec (value := value) hw.2.2.1 h.1 b.vals.length 0 (by omega)
  · rw [if_neg hc] at h ⊢
    exact bitmap_contains_spec h (by omega)

/-- The headers of the blocks `bs` are at `hp`; of their data, from `dp` on, only that of block `j` is
known. -/
def BlockAt (pad : Nat) (m : Mem) (j : Nat) : Nat → Nat → List Blk → Prop
  | _, _, [] => True
  | hp, dp, b :: bs => rd8 m hp = .ok b.id ∧ rd8 m (hp + 1) = .ok (b.vals.length - 1) ∧
      (b.id = j → BlkAt pad m dp b) ∧ BlockAt pad m j (hp + 2) (dp + b.size) bs

theorem BlocksAt.block {pad : Nat} {m : Mem} {j hp dp : Nat} {bs : List Blk}
    (h : BlocksAt pad m hp dp bs) : BlockAt pad m j hp dp bs := by
  induction bs generalizing hp dp with
  | nil => trivial
  | cons b bs ih => exact ⟨h.1, h.2.1, fun _ => h.2.2.1, ih h.2.2.2⟩

theorem contains_sparse_chunk_loop_block {dbg : Bool} {pad : Nat} {m : Mem} {value end_ : Nat}
    (hv : value < 65536) {bs : List Blk} (f : Nat) {hp dp : Nat} (hw : BlocksWF bs)
    (h : BlockAt pad m (value / 256) hp dp bs) (he : hp + 2 * bs.length = end_) (hf : bs.length < f) :
    contains_sparse_chunk_loop dbg m value end_ f hp dp = .ok (decide (value ∈ blkElems bs)) := by
  induction bs generalizing f hp dp with
  | nil =>
    obtain ⟨f, rfl⟩ : ∃ g, f = g + 1 := ⟨f - 1, by simp at hf; omega⟩
    simp at he
    simp [contains_sparse_chunk_loop, he]
  | cons b bs ih =>
    obtain ⟨f, rfl⟩ : ∃ g, f = g + 1 := ⟨f - 1, by simp at hf; omega⟩
    simp only [List.length_cons] at he hf
    obtain ⟨h1, h2, h3, h4⟩ := h
    have hbw := hw.head
    have hc1 := hbw.card_pos
    have hcc : b.vals.length - 1 + 1 = b.vals.length := by omega
    have hne : ¬ hp = end_ := by omega
    have hmem := mem_blkElems (v := value) hw
    unfold contains_sparse_chunk_loop
    simp only [if_neg hne, h1, ok_bind]
    by_cases hgt : b.id > value / 256
    · rw [if_pos hgt]
      simp only [pure_ok]
      congr 1
      symm
      rw [decide_eq_false_iff_not, hmem]
      rintro ⟨d, hd, hid, -⟩
      rcases List.mem_cons.mp hd with rfl | hd
      · omega
      · have := hw.head_lt d hd; omega
    · rw [if_neg hgt, h2]
      simp only [ok_bind, hcc]
      by_cases heq : b.id = value / 256
      · rw [if_pos heq, cassert_of (by simp; omega)]
        simp only [ok_bind]
        rw [sub32_eq (by omega) (by omega), show value - b.id * 256 = value % 256 by omega,
          blk_contains_spec hbw (h3 heq) (by omega)]
        congr 1
        rw [decide_eq_decide, hmem]
        constructor
        · intro hx; exact ⟨b, by simp, heq, hx⟩
        · rintro ⟨d, hd, hid, hx⟩
          rcases List.mem_cons.mp hd with rfl | hd
          · exact hx
          · have := hw.head_lt d hd; omega
      · rw [if_neg heq]
        have := ih f hw.tail h4 (by omega) (by omega)
        unfold Blk.size bytes_by_cardinality at this
        rw [this]
        congr 1
        rw [decide_eq_decide, hmem, mem_blkElems hw.tail]
        constructor
        · rintro ⟨d, hd, hid, hx⟩; exact ⟨d, by simp [hd], hid, hx⟩
        · rintro ⟨d, hd, hid, hx⟩
          rcases List.mem_cons.mp hd with rfl | hd
          · exact absurd hid heq
          · exact ⟨d, hd, hid, hx⟩

theorem contains_sparse_chunk_loop_spec {dbg : Bool} {pad : Nat} {m : Mem} {value end_ : Nat}
    (hv : value < 65536) {bs : List Blk} (f : Nat) {hp dp : Nat} (hw : BlocksWF bs)
    (h : BlocksAt pad m hp dp bs) (he : hp + 2 * bs.length = end_) (hf : bs.length < f) :
    contains_sparse_chunk_loop dbg m value end_ f hp dp = .ok (decide (value ∈ blkElems bs)) :=
  contains_sparse_chunk_loop_block hv f hw h.block he hf

/-- What `contains(v)` needs of the data of the slice of `v`. -/
def BodyFor (pad : Nat) (m : Mem) (v dp : Nat) : Body → Prop
  | .full => True
  | .dense vs => BitsAt (memWords m dp) 1024 (fun x => decide (x ∈ vs))
  | .sparse bs => BlockAt pad m (v % 65536 / 256) dp (dp + 2 * bs.length) bs

theorem BodyAt.for {pad : Nat} {m : Mem} {v dp : Nat} {b : Body} (h : BodyAt pad m dp b) :
    BodyFor pad m v dp b := by
  cases b with
  | full => trivial
  | dense vs => exact h
  | sparse bs => exact BlocksAt.block h

/-- Only the data of the slice of `v` matters. -/
theorem SSeq.contains_of_skip {dbg : Bool} {B : Nat → Chk → Prop} {pad : Nat} {m : Mem} {s : SSeq}
    {cs : List Chk} {it : It} (hw : ChunksWF cs) {v : Nat} (hv : v < 4294967296)
    (e : s.begin.skip_to_value m (v / 65536) = .ok it) (hit : ItOnP B m it (fromId (v / 65536) cs))
    (hB : ∀ dp c, c.id = v / 65536 → B dp c → BodyFor pad m v dp c.body) :
    s.contains dbg m v = .ok (decide (v ∈ seqElems cs)) := by
  unfold SSeq.contains
  simp only [e, ok_bind]
  have hmem := mem_seqElems (v := v) hw
  rcases fromId_cases (v / 65536) cs with ⟨h1, h2⟩ | ⟨pre, c, post, h1, h2, h3, h4⟩
  · rw [h1] at hit
    rw [hit.id_nil]
    simp only [ok_bind]
    rw [if_neg (by omega)]
    simp only [pure_ok]
    congr 1
    symm
    rw [decide_eq_false_iff_not, hmem]
    rintro ⟨c, hc, hid, -⟩
    have := h2 c hc; omega
  · rw [h2] at hit
    rw [hit.id]
    simp only [ok_bind]
    have hcw : ChunksWF (c :: post) := hit.wf
    have hkey : v ∈ seqElems cs ↔ c.id = v / 65536 ∧ v % 65536 ∈ c.body.vals := by
      rw [hmem, h1]
      constructor
      · rintro ⟨d, hd, hid, hx⟩
        rcases List.mem_append.mp hd with hd | hd
        · have := h3 d hd; omega
        · rcases List.mem_cons.mp hd with rfl | hd
          · exact ⟨hid, hx⟩
          · have := hcw.head_lt d hd; omega
      · rintro ⟨hid, hx⟩; exact ⟨c, by simp, hid, hx⟩
    by_cases hid : c.id = v / 65536
    · rw [if_pos hid]
      have hbody := hB _ _ hid hit.at_.2.1
      have hbw := hcw.head.2
      rw [show decide (v ∈ seqElems cs) = decide (v % 65536 ∈ c.body.vals) by
        rw [decide_eq_decide, hkey]; exact ⟨fun h => h.2, fun h => ⟨hid, h⟩⟩]
      cases hb : c.body with
      | full =>
        rw [hit.type_full hb]
        have : v % 65536 ∈ (Body.full).vals := by
          simp only [Body.vals, List.mem_range]; omega
        simp [type_sparse, type_dense, this]
      | dense vs =>
        rw [hit.type_dense hb]
        rw [hb] at hbody
        replace hbody : BitsAt (memWords m it.data) 1024 (fun x => decide (x ∈ vs)) := hbody
        have := bitmap_contains_spec (v := v % 65536) hbody (by omega)
        simp only [ok_bind, type_sparse, if_true, Nat.reduceEqDiff, if_false]
        exact this
      | sparse bs =>
        rw [hit.type_sparse hb, hit.blocks_sparse hb]
        rw [hb] at hbody hbw
        have h1 := List.length_pos_iff.mpr hbw.1
        have h2 := hbw.2.length_le
        simp only [ok_bind, if_true, contains_sparse_chunk]
        rw [cassert_of (by simp; omega)]
        simp only [ok_bind]
        rw [show it.data + bs.length * 2 = it.data + 2 * bs.length by omega]
        exact contains_sparse_chunk_loop_block (by omega) _ hbw.2 hbody rfl (by omega)
    · rw [if_neg hid]
      simp only [pure_ok]
      congr 1
      symm
      rw [decide_eq_false_iff_not, hkey]
      exact fun h => hid h.1

theorem SSeq.contains_specP {dbg : Bool} {B : Nat → Chk → Prop} {pad : Nat} {m : Mem} {s : SSeq}
    {cs : List Chk} (h : SeqAtP B m s cs) {v : Nat} (hv : v < 4294967296)
    (hB : ∀ dp c, c.id = v / 65536 → B dp c → BodyAt pad m dp c.body) :
    s.contains dbg m v = .ok (decide (v ∈ seqElems cs)) := by
  obtain ⟨it, e, hit, -⟩ := It.skip_to_value_spec (lb := v / 65536) h.begin h.ptrs
  exact SSeq.contains_of_skip h.wf hv e hit (fun dp c hc hb => (hB dp c hc hb).for)

theorem SSeq.contains_spec {dbg : Bool} {pad : Nat} {m : Mem} {s : SSeq} {cs : List Chk}
    (h : SeqAt pad m s cs) {v : Nat} (hv : v < 4294967296) :
    s.contains dbg m v = .ok (decide (v ∈ seqElems cs)) :=
  SSeq.contains_specP h hv (fun _ _ _ hb => hb)

end Sliced
