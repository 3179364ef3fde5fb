import Verif.Proof.Iter
import Verif.Model.Uncompress
/-! # uncompress.hpp: buffers of 64-bit words as sets of bits -/
namespace Sliced

/-- The words of the buffer are 64-bit words and its bits are given by `P`. -/
def BufIs (out : List Nat) (P : Nat → Bool) : Prop :=
  ∀ (i w : Nat), out[i]? = some w → w < 18446744073709551616 ∧ ∀ j, j < 64 → w.testBit j = P (64 * i + j)

/-- the bits of a buffer -/
def bufBit (out : List Nat) (x : Nat) : Bool :=
  match out[x / 64]? with
  | some w => w.testBit (x % 64)
  | none => false

theorem bufIs_self {out : List Nat} (h : ∀ w ∈ out, w < 18446744073709551616) :
    BufIs out (bufBit out) := by
  intro i w hw
  refine ⟨h w (List.mem_of_getElem? hw), ?_⟩
  intro j hj
  unfold bufBit
  rw [show (64 * i + j) / 64 = i by omega, show (64 * i + j) % 64 = j by omega, hw]

theorem BufIs.congr {out : List Nat} {P Q : Nat → Bool} (h : BufIs out P)
    (hpq : ∀ x, x < 64 * out.length → P x = Q x) : BufIs out Q := by
  intro i w hw
  have hi := (List.getElem?_eq_some_iff.mp hw).1
  refine ⟨(h i w hw).1, ?_⟩
  intro j hj
  rw [← hpq _ (by omega), (h i w hw).2 j hj]

theorem bufIs_replicate {n w : Nat} {P : Nat → Bool} (hw : w < 18446744073709551616)
    (hP : ∀ i j, j < 64 → w.testBit j = P (64 * i + j)) : BufIs (List.replicate n w) P := by
  intro i x hx
  rw [List.getElem?_replicate] at hx
  split at hx
  · cases hx; exact ⟨hw, fun j hj => hP i j hj⟩
  · cases hx

theorem BufIs.word_eq {out out' : List Nat} {P Q : Nat → Bool} (h : BufIs out P) (h' : BufIs out' Q)
    (hl : out'.length = out.length) {i : Nat}
    (he : ∀ j, j < 64 → P (64 * i + j) = Q (64 * i + j)) : out'[i]? = out[i]? := by
  by_cases hi : i < out.length
  · rw [List.getElem?_eq_getElem hi, List.getElem?_eq_getElem (by omega)]
    congr 1
    obtain ⟨b1, t1⟩ := h i _ (List.getElem?_eq_getElem hi)
    obtain ⟨b2, t2⟩ := h' i _ (List.getElem?_eq_getElem (l := out') (by omega))
    apply Nat.eq_of_testBit_eq
    intro j
    by_cases hj : j < 64
    · rw [t1 j hj, t2 j hj, he j hj]
    · have hp : (18446744073709551616 : Nat) ≤ 2 ^ j :=
        Nat.pow_le_pow_right (n := 2) (i := 64) (by omega) (by omega)
      rw [Nat.testBit_lt_two_pow (Nat.lt_of_lt_of_le b1 hp),
        Nat.testBit_lt_two_pow (Nat.lt_of_lt_of_le b2 hp)]
  · rw [List.getElem?_eq_none (by omega), List.getElem?_eq_none (by omega)]

theorem BufIs.wr {out : List Nat} {P P' : Nat → Bool} {i w : Nat} (h : BufIs out P)
    (hi : i < out.length) (hw : w < 18446744073709551616)
    (h1 : ∀ j, j < 64 → w.testBit j = P' (64 * i + j)) (h2 : ∀ x, x / 64 ≠ i → P' x = P x) :
    ∃ out', Sliced.wr out i w = .ok out' ∧ out'.length = out.length ∧ BufIs out' P' := by
  refine ⟨out.set i w, wr_of hi, by simp, ?_⟩
  intro k x hx
  by_cases hk : k = i
  · subst hk
    rw [List.getElem?_set_self hi] at hx
    cases hx
    exact ⟨hw, h1⟩
  · rw [List.getElem?_set_ne (by omega)] at hx
    refine ⟨(h k x hx).1, ?_⟩
    intro j hj
    rw [(h k x hx).2 j hj, h2 _ (by omega)]

theorem BufIs.rdv {out : List Nat} {P : Nat → Bool} {i : Nat} (h : BufIs out P)
    (hi : i < out.length) :
    ∃ w, Sliced.rdv out i = .ok w ∧ w < 18446744073709551616 ∧
      ∀ j, j < 64 → w.testBit j = P (64 * i + j) :=
  ⟨out[i], rdv_of (List.getElem?_eq_getElem hi), h i _ (List.getElem?_eq_getElem hi)⟩

theorem BufIs.bitsAt {out : List Nat} {P : Nat → Bool} {n : Nat} (h : BufIs out P)
    (hn : n ≤ out.length) : BitsAt (vecWords out) n P := by
  intro i hi
  exact h.rdv (by omega)

/-- `memcpy` of words sets a window of bits. -/
theorem memcpy_words_spec {W : Words} {Q : Nat → Bool} (n i : Nat) {out : List Nat} {p : Nat}
    {P : Nat → Bool} (hW : BitsAt W (i + n) Q) (h : BufIs out P) (hcap : p + (i + n) ≤ out.length) :
    ∃ out', memcpy_words W n i out p = .ok out' ∧ out'.length = out.length ∧
      BufIs out' (fun x => if 64 * (p + i) ≤ x ∧ x < 64 * (p + (i + n)) then Q (x - 64 * p)
        else P x) := by
  induction n generalizing i out P with
  | zero =>
    refine ⟨out, rfl, rfl, h.congr ?_⟩
    intro x _
    rw [if_neg (by omega)]
  | succ n ih =>
    obtain ⟨w, e, hw, hb⟩ := hW i (by omega)
    obtain ⟨o1, e1, l1, b1⟩ := h.wr (i := p + i) (w := w)
      (P' := fun x => if x / 64 = p + i then Q (x - 64 * p) else P x) (by omega) hw
      (by
        intro j hj
        rw [if_pos (by omega), hb j hj]
        congr 1; omega)
      (by intro x hx; rw [if_neg hx])
    obtain ⟨o2, e2, l2, b2⟩ := ih (i + 1) (by rw [show i + 1 + n = i + (n + 1) by omega]; exact hW) b1
      (by omega)
    refine ⟨o2, ?_, by omega, b2.congr ?_⟩
    · simp only [memcpy_words, e, e1, ok_bind, e2]
    · intro x _
      by_cases hx : x / 64 = p + i
      · rw [if_neg (by omega), if_pos hx, if_pos (by omega)]
      · by_cases hx2 : 64 * (p + (i + 1)) ≤ x ∧ x < 64 * (p + (i + 1 + n))
        · rw [if_pos hx2, if_pos (by omega)]
        · rw [if_neg hx2, if_neg hx, if_neg (by omega)]

/-- filling a window with a constant word -/
theorem wrs_replicate_spec (n : Nat) {w : Nat} {b : Bool} {out : List Nat} {p : Nat}
    {P : Nat → Bool} (hw : w < 18446744073709551616) (hb : ∀ j, j < 64 → w.testBit j = b)
    (h : BufIs out P) (hcap : p + n ≤ out.length) :
    ∃ out', wrs out p (List.replicate n w) = .ok out' ∧ out'.length = out.length ∧
      BufIs out' (fun x => if 64 * p ≤ x ∧ x < 64 * (p + n) then b else P x) := by
  induction n generalizing p out P with
  | zero =>
    refine ⟨out, rfl, rfl, h.congr ?_⟩
    intro x _
    rw [if_neg (by omega)]
  | succ n ih =>
    obtain ⟨o1, e1, l1, b1⟩ := h.wr (i := p) (w := w)
      (P' := fun x => if x / 64 = p then b else P x) (by omega) hw
      (by
        intro j hj
        rw [if_pos (by omega), hb j hj])
      (by intro x hx; rw [if_neg hx])
    obtain ⟨o2, e2, l2, b2⟩ := ih (p := p + 1) b1 (by omega)
    refine ⟨o2, ?_, by omega, b2.congr ?_⟩
    · simp only [List.replicate_succ, wrs, e1, ok_bind, e2]
    · intro x _
      by_cases hx : x / 64 = p
      · rw [if_neg (by omega), if_pos hx, if_pos (by omega)]
      · by_cases hx2 : 64 * (p + 1) ≤ x ∧ x < 64 * (p + 1 + n)
        · rw [if_pos hx2, if_pos (by omega)]
        · rw [if_neg hx2, if_neg hx, if_neg (by omega)]

theorem uncompress_sparse_block_loop_spec {m : Mem} {end_ : Nat} {vals : List Nat} (f : Nat)
    {begin : Nat} {out : List Nat} {p : Nat} {P : Nat → Bool} (hv : ∀ v ∈ vals, v < 256)
    (hb : ∀ (i v : Nat), vals[i]? = some v → rd8 m (begin + i) = .ok v)
    (he : begin + vals.length = end_) (hne : vals ≠ []) (hf : vals.length < f)
    (h : BufIs out P) (hcap : p + 4 ≤ out.length) :
    ∃ out', uncompress_sparse_block_loop m end_ f begin out p = .ok out' ∧
      out'.length = out.length ∧
      BufIs out' (fun x => P x || (decide (64 * p ≤ x) && decide (x - 64 * p ∈ vals))) := by
  induction vals generalizing f begin out P with
  | nil => exact absurd rfl hne
  | cons v vals ih =>
    obtain ⟨f, rfl⟩ : ∃ g, f = g + 1 := ⟨f - 1, by simp at hf; omega⟩
    simp only [List.length_cons] at he hf
    have hv0 := hv v (by simp)
    have hr := hb 0 v rfl
    rw [Nat.add_zero] at hr
    obtain ⟨w, e1, hw, hwb⟩ := h.rdv (i := p + v / 64) (by omega)
    have hpow : 2 ^ (v % 64) < 2 ^ 64 := Nat.pow_lt_pow_right (by omega) (by omega)
    obtain ⟨o1, e2, l1, b1⟩ := h.wr (i := p + v / 64) (w := w ||| 2 ^ (v % 64))
      (P' := fun x => P x || decide (x = 64 * p + v)) (by omega)
      (Nat.or_lt_two_pow (n := 64) hw hpow)
      (by
        intro j hj
        rw [Nat.testBit_or, hwb j hj, Nat.testBit_two_pow]
        congr 1
        rw [decide_eq_decide]; omega)
      (by
        intro x hx
        have : ¬ x = 64 * p + v := by omega
        simp [this])
    unfold uncompress_sparse_block_loop
    simp only [hr, e1, e2, ok_bind]
    have hP : ∀ x, (P x || decide (x = 64 * p + v)
        || (decide (64 * p ≤ x) && decide (x - 64 * p ∈ vals)))
        = (P x || (decide (64 * p ≤ x) && decide (x - 64 * p ∈ v :: vals))) := by
      intro x
      rw [Bool.or_assoc]
      congr 1
      rw [Bool.eq_iff_iff]
      simp only [Bool.or_eq_true, decide_eq_true_eq, Bool.and_eq_true, List.mem_cons]
      constructor
      · rintro (h | h)
        · exact ⟨by omega, Or.inl (by omega)⟩
        · exact ⟨h.1, Or.inr h.2⟩
      · rintro ⟨h1, h2 | h2⟩
        · exact Or.inl (by omega)
        · exact Or.inr ⟨h1, h2⟩
    cases hvals : vals with
    | nil =>
      subst hvals
      simp at he
      rw [if_pos he]
      refine ⟨o1, rfl, l1, b1.congr ?_⟩
      intro x _
      rw [← hP x]; simp
    | cons v' vals' =>
      have hne' : vals ≠ [] := by simp [hvals]
      have hl' := List.length_pos_iff.mpr hne'
      rw [if_neg (by omega)]
      obtain ⟨o2, e3, l2, b2⟩ := ih f (begin := begin + 1) (out := o1)
        (fun v hv' => hv v (by simp [hv'])) (by
          intro i x hx
          have := hb (i + 1) x (by simpa using hx)
          rw [show begin + 1 + i = begin + (i + 1) by omega]; exact this)
        (by omega) hne' (by omega) b1 (by omega)
      refine ⟨o2, e3, by omega, b2.congr ?_⟩
      intro x _
      rw [hP x, hvals]

/-- one block -/
theorem uncompress_block_spec {pad : Nat} {m : Mem} {dp : Nat} {b : Blk} {out : List Nat} {p : Nat}
    {P : Nat → Bool} (hw : b.WF) (hb : BlkAt pad m dp b) (h : BufIs out P)
    (hcap : p + 4 ≤ out.length) (hz : ∀ x, 64 * p ≤ x → x < 64 * p + 256 → P x = false) :
    ∃ out', (if b.vals.length < 31 then uncompress_sparse_block m dp b.vals.length out p
        else uncompress_dense_block m dp out p) = .ok out' ∧ out'.length = out.length ∧
      BufIs out' (fun x => P x || (decide (64 * p ≤ x) && decide (x - 64 * p ∈ b.vals))) := by
  unfold BlkAt at hb
  by_cases hc : b.vals.length < 31
  · rw [if_pos hc] at hb ⊢
    unfold uncompress_sparse_block
    exact uncompress_sparse_block_loop_spec _ hw.2.2.2 hb.1 rfl hw.2.1 (by omega) h hcap
  · rw [if_neg hc] at hb ⊢
    unfold uncompress_dense_block
    obtain ⟨o, e, l, bb⟩ := memcpy_words_spec 4 0 (p := p) (by simpa using hb) h (by omega)
    refine ⟨o, e, l, bb.congr ?_⟩
    intro x _
    by_cases hx : 64 * p ≤ x ∧ x < 64 * p + 256
    · rw [if_pos (by omega), hz x hx.1 hx.2]
      simp [hx.1]
    · rw [if_neg (by omega)]
      by_cases h1 : 64 * p ≤ x
      · have : x - 64 * p ∉ b.vals := by
          intro hm
          have := hw.2.2.2 _ hm
          omega
        simp [this]
      · simp [h1]

theorem uncompress_sparse_chunk_loop_spec {pad : Nat} {m : Mem} {bs : List Blk} {hp dp prev : Nat}
    {out : List Nat} {p0 p : Nat} {P : Nat → Bool} (hw : BlocksWF bs) (hb : BlocksAt pad m hp dp bs)
    (h : BufIs out P) (hcap : p0 + 1024 ≤ out.length) (hpe : p = p0 + 4 * prev)
    (hprev : ∀ b ∈ bs, prev ≤ b.id)
    (hz : ∀ b ∈ bs, ∀ x, 64 * p0 + 256 * b.id ≤ x → x < 64 * p0 + 65536 → P x = false) :
    ∃ out', uncompress_sparse_chunk_loop m bs.length hp dp prev out p = .ok out' ∧
      out'.length = out.length ∧
      BufIs out' (fun x => P x || (decide (64 * p0 ≤ x) && decide (x - 64 * p0 ∈ blkElems bs))) := by
  subst hpe
  induction bs generalizing hp dp prev out P with
  | nil =>
    refine ⟨out, rfl, rfl, h.congr ?_⟩
    intro x _; simp
  | cons b bs ih =>
    obtain ⟨h1, h2, h3, h4⟩ := hb
    have hbw := hw.head
    have hid := hbw.1
    have hc1 := hbw.card_pos
    have hcc : b.vals.length - 1 + 1 = b.vals.length := by omega
    have hpr := hprev b (by simp)
    have hpp : p0 + 4 * prev + b.id * 4 - prev * 4 = p0 + 4 * b.id := by omega
    obtain ⟨o1, e1, l1, b1⟩ := uncompress_block_spec (p := p0 + 4 * b.id) hbw h3 h (by omega)
      (by
        intro x hx1 hx2
        exact hz b (by simp) x (by omega) (by omega))
    have hbe : ∀ x, (decide (64 * (p0 + 4 * b.id) ≤ x) && decide (x - 64 * (p0 + 4 * b.id) ∈ b.vals))
        = (decide (64 * p0 ≤ x) && decide (x - 64 * p0 ∈ b.elems)) := by
      intro x
      rw [Bool.eq_iff_iff]
      simp only [decide_eq_true_eq, Bool.and_eq_true, Blk.elems, List.mem_map]
      constructor
      · rintro ⟨hx, hm⟩
        exact ⟨by omega, _, hm, by omega⟩
      · rintro ⟨hx, v, hm, hv⟩
        refine ⟨by omega, ?_⟩
        rw [show x - 64 * (p0 + 4 * b.id) = v by omega]; exact hm
    obtain ⟨o2, e2, l2, b2⟩ := ih (hp := hp + 2) (dp := dp + b.size) (prev := b.id) (out := o1) hw.tail h4
      b1 (by omega) (fun d hd => by have := hw.head_lt d hd; omega)
      (by
        intro d hd x hx1 hx2
        have hlt := hw.head_lt d hd
        rw [hz d (by simp [hd]) x hx1 hx2, hbe]
        have : x - 64 * p0 ∉ b.elems := by
          intro hm
          have := hbw.elems_bound _ hm
          omega
        simp [this])
    refine ⟨o2, ?_, by omega, b2.congr ?_⟩
    · unfold Blk.size bytes_by_cardinality at e2
      simp only [List.length_cons, uncompress_sparse_chunk_loop, h1, h2, ok_bind, hcc,
        block_size_in_64bit_words, hpp]
      by_cases hc : b.vals.length < 31
      · rw [if_pos hc] at e1 e2 ⊢
        rw [e1]; exact e2
      · rw [if_neg hc] at e1 e2 ⊢
        rw [e1]; exact e2
    · intro x _
      rw [hbe, blkElems_cons, Bool.or_assoc]
      congr 1
      simp only [List.mem_append, Bool.decide_or, Bool.and_or_distrib_left]

theorem uncompress_sparse_chunk_spec {dbg : Bool} {pad : Nat} {m : Mem} {bs : List Blk} {dp : Nat}
    {out : List Nat} {p : Nat} {P : Nat → Bool} (hne : bs ≠ []) (hw : BlocksWF bs)
    (hb : BlocksAt pad m dp (dp + 2 * bs.length) bs)
    (h : BufIs out P) (hcap : p + 1024 ≤ out.length)
    (hz : ∀ x, 64 * p ≤ x → x < 64 * p + 65536 → P x = false) :
    ∃ out', uncompress_sparse_chunk dbg m dp bs.length out p = .ok out' ∧
      out'.length = out.length ∧
      BufIs out' (fun x => P x || (decide (64 * p ≤ x) && decide (x - 64 * p ∈ blkElems bs))) := by
  have h1 := List.length_pos_iff.mpr hne
  have h2 := hw.length_le
  unfold uncompress_sparse_chunk
  rw [cassert_of (by simp; omega)]
  simp only [ok_bind]
  rw [show dp + bs.length * 2 = dp + 2 * bs.length by omega]
  exact uncompress_sparse_chunk_loop_spec (prev := 0) hw hb h hcap (by omega) (fun _ _ => by omega)
    (fun b _ x hx1 hx2 => hz x (by omega) hx2)

theorem testBit_ones {j : Nat} (hj : j < 64) : (18446744073709551615 : Nat).testBit j = true := by
  rw [show (18446744073709551615 : Nat) = 2 ^ 64 - 1 from rfl, Nat.testBit_two_pow_sub_one]
  simpa using hj

/-- `uncompress_chunk` fills the window of 1024 words from `p` on. -/
theorem uncompress_chunk_spec {dbg : Bool} {pad : Nat} {m : Mem} {it : It} {c : Chk} {cs : List Chk}
    {out : List Nat} {p : Nat} {P : Nat → Bool} (hit : ItOn pad m it (c :: cs)) (h : BufIs out P)
    (hcap : p + 1024 ≤ out.length) :
    ∃ out', uncompress_chunk dbg m it out p = .ok (c.card, out') ∧ out'.length = out.length ∧
      BufIs out' (fun x => if 64 * p ≤ x ∧ x < 64 * p + 65536 then
        decide (x - 64 * p ∈ c.body.vals) else P x) := by
  have hw := hit.wf.head
  have hbw := hw.2
  have hbody : BodyAt _ _ _ _ := hit.at_.2.1
  have hcard := hit.cardinality
  unfold uncompress_chunk
  cases hb : c.body with
  | full =>
    rw [hit.type_full hb]
    obtain ⟨o, e, l, b⟩ := wrs_replicate_spec 1024 (b := true) (p := p) (by decide)
      (fun j hj => testBit_ones hj) h hcap
    refine ⟨o, ?_, l, b.congr ?_⟩
    · simp only [ok_bind, type_sparse, type_dense, type_full, Nat.reduceEqDiff, if_false, if_true,
        uncompress_full_chunk, e, hcard, pure_ok]
    · intro x _
      rw [show 64 * (p + 1024) = 64 * p + 65536 by omega]
      by_cases hx : 64 * p ≤ x ∧ x < 64 * p + 65536
      · rw [if_pos hx, if_pos hx]
        have : x - 64 * p ∈ List.range 65536 := List.mem_range.mpr (by omega)
        exact (decide_eq_true this).symm
      · rw [if_neg hx, if_neg hx]
  | dense vs =>
    rw [hit.type_dense hb]
    rw [hb] at hbody
    replace hbody : BitsAt (memWords m it.data) 1024 (fun x => decide (x ∈ vs)) := hbody
    obtain ⟨o, e, l, b⟩ := memcpy_words_spec 1024 0 (p := p) (by simpa using hbody) h (by omega)
    refine ⟨o, ?_, l, b.congr ?_⟩
    · simp only [ok_bind, type_sparse, type_dense, Nat.reduceEqDiff, if_false, if_true,
        uncompress_dense_chunk]
      rw [show chunk_size / 8 / 8 = 1024 from rfl, e]
      simp only [ok_bind, hcard, pure_ok]
    · intro x _
      rw [show 64 * (p + (0 + 1024)) = 64 * p + 65536 by omega, Nat.add_zero]
      by_cases hx : 64 * p ≤ x ∧ x < 64 * p + 65536
      · rw [if_pos hx, if_pos hx]; rfl
      · rw [if_neg hx, if_neg hx]
  | sparse bs =>
    rw [hit.type_sparse hb, hit.blocks_sparse hb]
    rw [hb] at hbody hbw
    obtain ⟨o, e, l, b⟩ := wrs_replicate_spec 1024 (w := 0) (b := false) (p := p) (by decide)
      (fun j hj => Nat.zero_testBit j) h hcap
    obtain ⟨o2, e2, l2, b2⟩ := uncompress_sparse_chunk_spec (dbg := dbg) (p := p) hbw.1 hbw.2 hbody b
      (by omega) (by intro x hx1 hx2; rw [if_pos (by omega)])
    refine ⟨o2, ?_, by omega, b2.congr ?_⟩
    · simp only [ok_bind, type_sparse, if_true, e, e2, hcard, pure_ok]
    · intro x _
      rw [show 64 * (p + 1024) = 64 * p + 65536 by omega]
      by_cases hx : 64 * p ≤ x ∧ x < 64 * p + 65536
      · rw [if_pos hx, if_pos hx]
        simp only [hx.1, decide_true, Bool.true_and, Bool.false_or]; rfl
      · rw [if_neg hx, if_neg hx]
        by_cases h1 : 64 * p ≤ x
        · have : x - 64 * p ∉ blkElems bs := by
            intro hm
            have := hbw.2.bound _ hm
            omega
          simp [this]
        · simp [h1]

theorem uncompress_loop_spec {dbg : Bool} {pad : Nat} {m : Mem} {cs : List Chk} {it : It}
    {prev : Nat} {out : List Nat} {p u : Nat} {P : Nat → Bool} (hit : ItOn pad m it cs)
    (h : BufIs out P) (hcap : ∀ c ∈ cs, (c.id + 1) * 1024 ≤ out.length) (hp : p = 1024 * prev)
    (hprev : ∀ c ∈ cs, prev ≤ c.id) :
    ∃ out', uncompress_loop dbg m cs.length it prev out p u = .ok (u + cardSum cs, out') ∧
      out'.length = out.length ∧
      BufIs out' (fun x => if ∃ c ∈ cs, c.id = x / 65536 then decide (x ∈ seqElems cs) else P x) := by
  subst hp
  induction cs generalizing it prev out u P with
  | nil =>
    refine ⟨out, by simp [uncompress_loop], rfl, h.congr ?_⟩
    intro x _; simp
  | cons c cs ih =>
    have hc := hit.wf.head
    have hid := hc.1
    have hpr := hprev c (by simp)
    have hcp := hcap c (by simp)
    obtain ⟨o1, e1, l1, b1⟩ := uncompress_chunk_spec (dbg := dbg) (p := 1024 * c.id) hit h (by omega)
    obtain ⟨it', e2, hit', -⟩ := hit.next
    obtain ⟨o2, e3, l2, b2⟩ := ih (it := it') (prev := c.id) (out := o1) (u := u + c.card) hit' b1
      (fun d hd => by rw [l1]; exact hcap d (by simp [hd]))
      (fun d hd => by have := hit.wf.head_lt d hd; omega)
    refine ⟨o2, ?_, by omega, b2.congr ?_⟩
    · simp only [List.length_cons, uncompress_loop, hit.id, ok_bind, chunk_size_in_64bit_words]
      rw [u16_lt (by omega), show 1024 * prev + c.id * 1024 - prev * 1024 = 1024 * c.id by omega, e1]
      simp only [ok_bind, e2]
      rw [e3, cardSum_cons, Nat.add_assoc]
    · intro x _
      have hmt := mem_seqElems (v := x) hit.wf.tail
      have hm := mem_seqElems (v := x) hit.wf
      by_cases h1 : ∃ d ∈ cs, d.id = x / 65536
      · have h1' : ∃ d ∈ c :: cs, d.id = x / 65536 := by
          obtain ⟨d, hd, he⟩ := h1; exact ⟨d, by simp [hd], he⟩
        rw [if_pos h1, if_pos h1', decide_eq_decide, hmt, hm]
        constructor
        · rintro ⟨d, hd, he⟩; exact ⟨d, by simp [hd], he⟩
        · rintro ⟨d, hd, he, hx⟩
          rcases List.mem_cons.mp hd with rfl | hd
          · obtain ⟨d', hd', he'⟩ := h1
            have := hit.wf.head_lt d' hd'
            omega
          · exact ⟨d, hd, he, hx⟩
      · rw [if_neg h1]
        by_cases h2 : c.id = x / 65536
        · rw [if_pos (by omega), if_pos ⟨c, by simp, h2⟩, decide_eq_decide, hm]
          rw [show x - 64 * (1024 * c.id) = x % 65536 by omega]
          constructor
          · intro hx; exact ⟨c, by simp, h2, hx⟩
          · rintro ⟨d, hd, he, hx⟩
            rcases List.mem_cons.mp hd with rfl | hd
            · exact hx
            · exact absurd ⟨d, hd, he⟩ h1
        · rw [if_neg (by omega), if_neg]
          rintro ⟨d, hd, he⟩
          rcases List.mem_cons.mp hd with rfl | hd
          · exact h2 he
          · exact h1 ⟨d, hd, he⟩

theorem SSeq.uncompress_spec {dbg : Bool} {pad : Nat} {m : Mem} {s : SSeq} {cs : List Chk}
    {out : List Nat} {P : Nat → Bool} (hs : SeqAt pad m s cs) (h : BufIs out P)
    (hcap : ∀ c ∈ cs, (c.id + 1) * 1024 ≤ out.length) :
    ∃ out', s.uncompress dbg m out = .ok ((seqElems cs).length, out') ∧
      out'.length = out.length ∧
      BufIs out' (fun x => if ∃ c ∈ cs, c.id = x / 65536 then decide (x ∈ seqElems cs) else P x) := by
  obtain ⟨o, e, l, b⟩ := uncompress_loop_spec (dbg := dbg) (u := 0) (prev := 0) (p := 0) hs.begin h hcap
    (by omega) (fun _ _ => by omega)
  refine ⟨o, ?_, l, b⟩
  unfold SSeq.uncompress
  rw [hs.chunks, e]
  simp only [ok_bind, Nat.zero_add]
  have hpos : 0 < cardSum cs := by
    cases cs with
    | nil => exact absurd rfl hs.ne
    | cons c cs => have := hs.wf.head.card_pos; rw [cardSum_cons]; omega
  rw [cassert_of (by simpa using hpos), seqElems_length]
  rfl

end Sliced
