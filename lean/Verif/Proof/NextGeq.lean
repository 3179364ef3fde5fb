import Verif.Proof.Iter
import Verif.Model.NextGeq
/-! # next_geq.hpp -/
namespace Sliced

/-- the first element that is at least `v` -/
def geq (v : Nat) (L : List Nat) : Option Nat := L.find? (fun x => decide (v ≤ x))

theorem geq_append (v : Nat) (a b : List Nat) : geq v (a ++ b) = (geq v a).or (geq v b) := by
  simp [geq, List.find?_append]

theorem geq_none_of_lt {v : Nat} {L : List Nat} (h : ∀ x ∈ L, x < v) : geq v L = none := by
  unfold geq
  rw [List.find?_eq_none]
  intro x hx
  have := h x hx
  simp; omega

theorem geq_head_of_le {v : Nat} {L : List Nat} (h : ∀ x ∈ L, v ≤ x) : geq v L = L.head? := by
  cases L with
  | nil => rfl
  | cons a L =>
    have := h a (by simp)
    simp [geq, this]

theorem geq_map_add {v b : Nat} {L : List Nat} (hv : b ≤ v) :
    geq v (L.map (b + ·)) = (geq (v - b) L).map (b + ·) := by
  unfold geq
  rw [List.find?_map]
  congr 2
  funext x
  simp only [Function.comp]
  rw [decide_eq_decide]; omega

theorem geq_cons (v a : Nat) (L : List Nat) :
    geq v (a :: L) = if v ≤ a then some a else geq v L := by
  unfold geq
  rw [List.find?_cons]
  by_cases h : v ≤ a <;> simp [h]

/-! ## Words -/

theorem word_find_none {i : Nat} {P : Nat → Bool}
    (hb : ∀ j, j < 64 → (0 : Nat).testBit j = P (64 * i + j)) :
    (List.range' (64 * i) 64).find? P = none := by
  rw [List.find?_eq_none]
  intro x hx
  rw [List.mem_range'_1] at hx
  have := hb (x - 64 * i) (by omega)
  rw [Nat.zero_testBit, show 64 * i + (x - 64 * i) = x by omega] at this
  simp [← this]

theorem find?_range'_eq_some {s n x : Nat} {P : Nat → Bool} (h1 : s ≤ x) (h2 : x < s + n)
    (hx : P x = true) (hlow : ∀ y, s ≤ y → y < x → P y = false) :
    (List.range' s n).find? P = some x := by
  rw [show n = (x - s) + ((n - (x - s) - 1) + 1) by omega,
    ← List.range'_append_1, List.range'_succ, List.find?_append]
  have hn : (List.range' s (x - s)).find? P = none := by
    rw [List.find?_eq_none]
    intro y hy
    rw [List.mem_range'_1] at hy
    simp [hlow y (by omega) (by omega)]
  rw [hn, show s + (x - s) = x by omega]
  simp [hx]

theorem word_find_some {w i r : Nat} {P : Nat → Bool}
    (hb : ∀ j, j < 64 → w.testBit j = P (64 * i + j)) (hr : ctz w = .ok r) :
    (List.range' (64 * i) 64).find? P = some (64 * i + r) := by
  obtain ⟨h1, h2, h3⟩ := ctz_spec hr
  apply find?_range'_eq_some (by omega) (by omega)
  · rw [← hb r h1]; exact h2
  · intro y hy1 hy2
    have := hb (y - 64 * i) (by omega)
    rw [show 64 * i + (y - 64 * i) = y by omega] at this
    rw [← this, h3 _ (by omega)]

theorem min_value_in_bitmap_loop_spec {W : Words} {P : Nat → Bool} (n i : Nat) {x : Nat}
    (hW : BitsAt W (i + n) P) (hb : 64 * (i + n) ≤ 65536)
    (hx : (List.range' (64 * i) (64 * n)).find? P = some x) :
    min_value_in_bitmap_loop W n i = .ok x := by
  induction n generalizing i with
  | zero => simp at hx
  | succ n ih =>
    obtain ⟨w, e1, hw, hbits⟩ := hW i (by omega)
    rw [range'_split, List.find?_append] at hx
    simp only [min_value_in_bitmap_loop, e1, ok_bind]
    by_cases h0 : w = 0
    · subst h0
      rw [word_find_none hbits] at hx
      simp only [ne_eq, not_true_eq_false, if_false]
      exact ih (i + 1) (by rw [show i + 1 + n = i + (n + 1) by omega]; exact hW) (by omega)
        (by simpa using hx)
    · obtain ⟨r, hr⟩ := ctz_exists h0 hw
      have hr64 := (ctz_spec hr).1
      rw [word_find_some hbits hr] at hx
      simp only [Option.some_or, Option.some.injEq] at hx
      simp only [ne_eq, h0, not_false_eq_true, if_true, hr, ok_bind, pure_ok]
      rw [u32_lt (by omega)]
      congr 1; omega

theorem min_value_in_bitmap_spec {W : Words} {n x : Nat} {L : List Nat}
    (hW : BitsAt W n (fun x => decide (x ∈ L))) (hb : 64 * n ≤ 65536)
    (hs : L.Pairwise (· < ·)) (hl : ∀ y ∈ L, y < 64 * n) (hx : L.head? = some x) :
    min_value_in_bitmap W n = .ok x := by
  apply min_value_in_bitmap_loop_spec n 0 (by simpa using hW) (by simpa using hb)
  rw [← filter_range_mem hs hl, List.head?_filter, List.range_eq_range'] at hx
  simpa using hx

theorem clz_spec {w r : Nat} (h : clz w = .ok r) :
    r < 64 ∧ w.testBit (63 - r) = true ∧ ∀ j, 63 - r < j → j < 64 → w.testBit j = false := by
  unfold clz at h
  split at h
  · rename_i r' hf
    cases h
    rw [List.find?_range_eq_some] at hf
    obtain ⟨h1, h2, h3⟩ := hf
    refine ⟨List.mem_range.mp h2, h1, ?_⟩
    intro j hj hj64
    have := h3 (63 - j) (by omega)
    rw [show 63 - (63 - j) = j by omega] at this
    simpa using this
  · cases h

theorem clz_exists {w : Nat} (h0 : w ≠ 0) (hw : w < 18446744073709551616) : ∃ r, clz w = .ok r := by
  obtain ⟨r, hr⟩ := ctz_exists h0 hw
  obtain ⟨h1, h2, -⟩ := ctz_spec hr
  unfold clz
  split
  · exact ⟨_, rfl⟩
  · rename_i hf
    exfalso
    rw [List.find?_eq_none] at hf
    have := hf (63 - r) (List.mem_range.mpr (by omega))
    rw [show 63 - (63 - r) = r by omega] at this
    exact this h2

theorem max_value_in_bitmap_loop_spec {W : Words} {P : Nat → Bool} (n : Nat) (hW : BitsAt W n P)
    {y : Nat} (hy : y < 64 * n) (hP : P y = true) :
    ∃ x, max_value_in_bitmap_loop W n = .ok x ∧ x < 64 * n ∧ P x = true ∧
      ∀ z, z < 64 * n → P z = true → z ≤ x := by
  induction n with
  | zero => omega
  | succ n ih =>
    obtain ⟨w, e1, hw, hbits⟩ := hW n (by omega)
    simp only [max_value_in_bitmap_loop, e1, ok_bind]
    by_cases h0 : w = 0
    · subst h0
      have hno : ∀ z, 64 * n ≤ z → z < 64 * (n + 1) → P z = false := by
        intro z h1 h2
        have := hbits (z - 64 * n) (by omega)
        rw [Nat.zero_testBit, show 64 * n + (z - 64 * n) = z by omega] at this
        exact this.symm
      have hyn : y < 64 * n := by
        by_cases h : y < 64 * n
        · exact h
        · rw [hno y (by omega) hy] at hP; cases hP
      obtain ⟨x, e, h1, h2, h3⟩ := ih (fun i hi => hW i (by omega)) hyn
      refine ⟨x, by simpa using e, by omega, h2, ?_⟩
      intro z hz hPz
      by_cases h : z < 64 * n
      · exact h3 z h hPz
      · rw [hno z (by omega) hz] at hPz; cases hPz
    · obtain ⟨r, hr⟩ := clz_exists h0 hw
      obtain ⟨hr64, hrb, hrh⟩ := clz_spec hr
      refine ⟨n * 64 + 63 - r, by simp [h0, hr], by omega, ?_, ?_⟩
      · rw [hbits (63 - r) (by omega)] at hrb
        rw [show n * 64 + 63 - r = 64 * n + (63 - r) by omega]; exact hrb
      · intro z hz hPz
        by_cases h : z ≤ n * 64 + 63 - r
        · exact h
        · exfalso
          have := hbits (z - 64 * n) (by omega)
          rw [show 64 * n + (z - 64 * n) = z by omega, hPz, hrh _ (by omega) (by omega)] at this
          cases this

theorem next_geq_bitmap_loop_spec {W : Words} {Q : Nat → Bool} {n : Nat} (f : Nat) {k w : Nat}
    (hk : k < n) (hW : ∀ i, k < i → i < n → ∃ w, W i = .ok w ∧ w < 18446744073709551616 ∧
      ∀ j, j < 64 → w.testBit j = Q (64 * i + j))
    (hw : w < 18446744073709551616) (hbits : ∀ j, j < 64 → w.testBit j = Q (64 * k + j))
    (hb : 64 * n ≤ 65536) (hf : n - k < f) :
    next_geq_bitmap_loop W n f k w
      = .ok (((List.range' (64 * k) (64 * (n - k))).find? Q).getD not_found) := by
  induction f generalizing k w with
  | zero => omega
  | succ f ih =>
    unfold next_geq_bitmap_loop
    rw [show n - k = (n - (k + 1)) + 1 by omega, range'_split, List.find?_append]
    by_cases h0 : w = 0
    · subst h0
      rw [if_pos rfl, word_find_none hbits]
      simp only [Option.none_or]
      by_cases hkn : k + 1 = n
      · rw [if_pos hkn, show n - (k + 1) = 0 by omega]; rfl
      · rw [if_neg hkn]
        obtain ⟨w', e', hw', hb'⟩ := hW (k + 1) (by omega) (by omega)
        rw [e']
        exact ih (by omega) (fun i h1 h2 => hW i (by omega) h2) hw' hb' (by omega)
    · rw [if_neg h0]
      obtain ⟨r, hr⟩ := ctz_exists h0 hw
      have hr64 := (ctz_spec hr).1
      rw [hr, word_find_some hbits hr]
      simp only [ok_bind, pure_ok, Option.some_or, Option.getD_some]
      rw [u32_lt (by omega), Nat.mul_comm]

theorem next_geq_bitmap_spec {W : Words} {n v : Nat} {L : List Nat}
    (hW : BitsAt W n (fun x => decide (x ∈ L))) (hb : 64 * n ≤ 65536) (hv : v < 64 * n)
    (hs : L.Pairwise (· < ·)) (hl : ∀ y ∈ L, y < 64 * n) :
    next_geq_bitmap W n v = .ok ((geq v L).getD not_found) := by
  obtain ⟨w, e, hw, hbits⟩ := hW (v / 64) (by omega)
  unfold next_geq_bitmap
  simp only [e, ok_bind]
  have hmask : ∀ d j, d < 64 → j < 64 →
      (u64 ((w >>> d) <<< d)).testBit j = (decide (d ≤ j) && w.testBit j) := by
    intro d j hd hj
    unfold u64
    rw [show (18446744073709551616 : Nat) = 2 ^ 64 from rfl, Nat.testBit_mod_two_pow,
      Nat.testBit_shiftLeft, Nat.testBit_shiftRight]
    by_cases hdj : d ≤ j
    · simp [hj, hdj, show d + (j - d) = j by omega]
    · simp [hdj]
  have := next_geq_bitmap_loop_spec (W := W) (Q := fun x => decide (x ∈ L) && decide (v ≤ x)) (n := n)
    (n + 1) (k := v / 64) (w := u64 ((w >>> (v - v / 64 * 64)) <<< (v - v / 64 * 64))) (by omega)
    (by
      intro i h1 h2
      obtain ⟨w', e', hw', hb'⟩ := hW i h2
      refine ⟨w', e', hw', ?_⟩
      intro j hj
      rw [hb' j hj]
      have : v ≤ 64 * i + j := by omega
      simp [this])
    (Nat.mod_lt _ (by decide))
    (by
      intro j hj
      rw [hmask _ _ (by omega) hj, hbits j hj, Bool.and_comm]
      congr 1
      rw [decide_eq_decide]; omega)
    hb (by omega)
  rw [this]
  congr 2
  have key : geq v L = (List.range (64 * n)).find? (fun x => decide (x ∈ L) && decide (v ≤ x)) := by
    have := List.find?_filter (xs := List.range (64 * n)) (p := fun x => decide (x ∈ L))
      (q := fun x => decide (v ≤ x))
    rw [filter_range_mem hs hl] at this
    exact this.trans (by congr; funext a; simp)
  rw [key, List.range_eq_range',
    show 64 * n = 64 * (v / 64) + 64 * (n - v / 64) by omega, ← List.range'_append_1,
    List.find?_append]
  have hn : (List.range' 0 (64 * (v / 64))).find?
      (fun a => decide (a ∈ L) && decide (v ≤ a)) = none := by
    rw [List.find?_eq_none]
    intro y hy
    rw [List.mem_range'_1] at hy
    have : ¬ v ≤ y := by omega
    simp [this]
  rw [hn, Nat.zero_add, Option.none_or]

/-! ## Blocks -/

theorem next_geq_sparse_block_loop_spec {m : Mem} {begin v : Nat} {vals : List Nat}
    (h : ∀ (i v : Nat), vals[i]? = some v → rd8 m (begin + i) = .ok v)
    (n i : Nat) (hn : i + n = vals.length) :
    next_geq_sparse_block_loop m begin v n i = .ok ((geq v (vals.drop i)).getD not_found) := by
  induction n generalizing i with
  | zero =>
    rw [List.drop_eq_nil_of_le (by omega)]
    rfl
  | succ n ih =>
    have hi : i < vals.length := by omega
    have hx := h i _ (List.getElem?_eq_getElem hi)
    simp only [next_geq_sparse_block_loop, hx, ok_bind, pure_ok]
    rw [List.drop_eq_getElem_cons hi]
    by_cases h1 : v ≤ vals[i]
    · rw [if_pos h1, geq_cons, if_pos h1]; rfl
    · rw [if_neg h1, ih (i + 1) (by omega), geq_cons, if_neg h1]

theorem blk_geq_spec {pad : Nat} {m : Mem} {dp v : Nat} {b : Blk} (hw : b.WF)
    (h : BlkAt pad m dp b) (hv : v < 256) :
    (if b.vals.length < 31 then next_geq_sparse_block m dp b.vals.length v
      else next_geq_bitmap (memWords m dp) block_size_in_64bit_words v)
      = .ok ((geq v b.vals).getD not_found) := by
  unfold BlkAt at h
  by_cases hc : b.vals.length < 31
  · rw [if_pos hc] at h ⊢
    unfold next_geq_sparse_block
    simpa using next_geq_sparse_block_loop_spec h.1 b.vals.length 0 (by omega)
  · rw [if_neg hc] at h ⊢
    exact next_geq_bitmap_spec (n := 4) h (by omega) (by omega) hw.2.2.1 hw.2.2.2

theorem blk_max_spec {pad : Nat} {m : Mem} {hp dp : Nat} {b : Blk} (hw : b.WF)
    (hc : rd8 m (hp + 1) = .ok (b.vals.length - 1)) (h : BlkAt pad m dp b) :
    ∃ x, max_value_in_block m hp dp = .ok x ∧ x ∈ b.vals ∧ ∀ y ∈ b.vals, y ≤ x := by
  have h1 := hw.card_pos
  unfold max_value_in_block
  simp only [hc, ok_bind]
  unfold BlkAt at h
  by_cases h31 : b.vals.length < 31
  · rw [if_pos h31] at h
    rw [if_pos (by omega)]
    have hlt : b.vals.length - 1 < b.vals.length := by omega
    refine ⟨b.vals[b.vals.length - 1], h.1 _ _ (List.getElem?_eq_getElem hlt),
      List.getElem_mem hlt, ?_⟩
    intro y hy
    obtain ⟨i, hi, rfl⟩ := List.getElem_of_mem hy
    rcases Nat.lt_or_ge i (b.vals.length - 1) with h | h
    · have := List.pairwise_iff_getElem.mp hw.2.2.1 i _ hi hlt h
      omega
    · have : i = b.vals.length - 1 := by omega
      subst this; exact Nat.le_refl _
  · rw [if_neg h31] at h
    rw [if_neg (by omega)]
    obtain ⟨y, hy⟩ := List.exists_mem_of_length_pos (Nat.lt_of_lt_of_le Nat.zero_lt_one h1)
    obtain ⟨x, e, hx, hP, hmax⟩ := max_value_in_bitmap_loop_spec 4 h
      (y := y) (hw.2.2.2 y hy) (by simpa using hy)
    refine ⟨x, e, by simpa using hP, ?_⟩
    intro z hz
    exact hmax z (hw.2.2.2 z hz) (by simpa using hz)

theorem block_min_spec {pad : Nat} {m : Mem} {hp dp base x : Nat} {b : Blk} (hw : b.WF)
    (hc : rd8 m (hp + 1) = .ok (b.vals.length - 1)) (h : BlkAt pad m dp b)
    (hb : base + 256 ≤ 4294967296) (hx : b.vals.head? = some x) :
    block_min m hp dp base = .ok (base + x) := by
  have h1 := hw.card_pos
  have hx256 := hw.2.2.2 x (List.mem_of_head? hx)
  unfold block_min
  simp only [hc, ok_bind]
  unfold BlkAt at h
  by_cases h31 : b.vals.length < 31
  · rw [if_pos h31] at h
    rw [if_pos (by omega)]
    have := h.1 0 x (by rw [← List.head?_eq_getElem?]; exact hx)
    rw [Nat.add_zero] at this
    rw [this]
    simp only [ok_bind, pure_ok]
    rw [u32_lt (by omega), Nat.add_comm]
  · rw [if_neg h31] at h
    rw [if_neg (by omega), min_value_in_bitmap_spec h (by omega) hw.2.2.1 hw.2.2.2 hx]
    simp only [ok_bind, pure_ok]
    rw [u32_lt (by omega), Nat.add_comm]

theorem Blk.WF.head?_exists {b : Blk} (hw : b.WF) : ∃ x, b.vals.head? = some x := by
  cases h : b.vals with
  | nil => exact absurd h hw.2.1
  | cons a l => exact ⟨a, rfl⟩

theorem blkElems_head? {b : Blk} {bs : List Blk} {x : Nat} (hx : b.vals.head? = some x) :
    (blkElems (b :: bs)).head? = some (b.id * 256 + x) := by
  rw [blkElems_cons, List.head?_append]
  simp [Blk.elems, List.head?_map, hx]

theorem skip_blocks_spec {pad : Nat} {m : Mem} {block_id end_ : Nat} {bs : List Blk} (f : Nat)
    {hp dp id : Nat} (hw : BlocksWF bs) (h : BlocksAt pad m hp dp bs)
    (he : hp + 2 * bs.length = end_) (hf : bs.length < f) (hid : rd8 m hp = .ok id) :
    ∃ hp' dp' id' pre bs', skip_blocks m block_id end_ f hp dp id = .ok (hp', dp', id') ∧
      bs = pre ++ bs' ∧ (∀ b ∈ pre, b.id < block_id) ∧ BlocksAt pad m hp' dp' bs' ∧
      hp' + 2 * bs'.length = end_ ∧ rd8 m hp' = .ok id' ∧ hp ≤ hp' ∧
      ∀ b, bs'.head? = some b → block_id ≤ b.id := by
  induction bs generalizing f hp dp id with
  | nil =>
    obtain ⟨f, rfl⟩ : ∃ g, f = g + 1 := ⟨f - 1, by simp at hf; omega⟩
    simp at he
    refine ⟨hp, dp, id, [], [], ?_, rfl, by simp, h, by simpa using he, hid, Nat.le_refl _, by simp⟩
    simp [skip_blocks, he]
  | cons b bs ih =>
    obtain ⟨f, rfl⟩ : ∃ g, f = g + 1 := ⟨f - 1, by simp at hf; omega⟩
    simp only [List.length_cons] at he hf
    obtain ⟨h1, h2, h3, h4⟩ := h
    have hidb : id = b.id := by rw [h1] at hid; cases hid; rfl
    subst hidb
    have hc1 := hw.head.card_pos
    have hcc : b.vals.length - 1 + 1 = b.vals.length := by omega
    unfold skip_blocks
    by_cases hlt : b.id < block_id
    · rw [if_pos ⟨hlt, by omega⟩]
      simp only [h2, ok_bind, hcc]
      have hrd : ∃ x, rd8 m (hp + 2) = .ok x := by
        cases bs with
        | nil => exact h4
        | cons d bs => exact ⟨_, h4.1⟩
      obtain ⟨x, hx⟩ := hrd
      obtain ⟨hp', dp', id', pre, bs', e, hbs, hpre, hat, he', hid', hle, hhd⟩ :=
        ih f hw.tail h4 (by omega) (by omega) hx
      refine ⟨hp', dp', id', b :: pre, bs', ?_, by simp [hbs], ?_, hat, he', hid', by omega, hhd⟩
      · simp only [hx, ok_bind]; exact e
      · intro d hd
        rcases List.mem_cons.mp hd with rfl | hd
        · exact hlt
        · exact hpre d hd
    · rw [if_neg (by omega)]
      refine ⟨hp, dp, b.id, [], b :: bs, rfl, rfl, by simp, ⟨h1, h2, h3, h4⟩, by simpa using he, h1,
        Nat.le_refl _, ?_⟩
      intro d hd
      simp at hd; subst hd; omega

theorem BlocksWF.append_right {a b : List Blk} (h : BlocksWF (a ++ b)) : BlocksWF b :=
  ⟨(List.pairwise_append.mp h.1).2.1, fun c hc => h.2 c (by simp [hc])⟩

theorem BlocksWF.append_left {a b : List Blk} (h : BlocksWF (a ++ b)) : BlocksWF a :=
  ⟨(List.pairwise_append.mp h.1).1, fun c hc => h.2 c (by simp [hc])⟩

theorem blkElems_append (a b : List Blk) : blkElems (a ++ b) = blkElems a ++ blkElems b := by
  simp [blkElems]

theorem next_geq_sparse_chunk_spec {dbg : Bool} {pad : Nat} {m : Mem} {dp v : Nat} {bs : List Blk}
    (hne : bs ≠ []) (hw : BlocksWF bs) (h : BlocksAt pad m dp (dp + 2 * bs.length) bs)
    (hv : v < 65536) :
    next_geq_sparse_chunk dbg m dp bs.length v = .ok ((geq v (blkElems bs)).getD not_found) := by
  have hl1 := List.length_pos_iff.mpr hne
  have hl2 := hw.length_le
  unfold next_geq_sparse_chunk
  rw [cassert_of (by simp; omega)]
  simp only [ok_bind]
  rw [show dp + bs.length * 2 = dp + 2 * bs.length by omega]
  have hrd : ∃ x, rd8 m dp = .ok x := by
    cases bs with
    | nil => exact absurd rfl hne
    | cons d bs => exact ⟨_, h.1⟩
  obtain ⟨id, hid⟩ := hrd
  obtain ⟨hp', dp', id', pre, bs', e, hbs, hpre, hat, he', hid', hle, hhd⟩ :=
    skip_blocks_spec (block_id := v / 256) (bs.length + 1) hw h rfl (by omega) hid
  simp only [hid, ok_bind, e]
  have hw' : BlocksWF bs' := by rw [hbs] at hw; exact hw.append_right
  have hwp : BlocksWF pre := by rw [hbs] at hw; exact hw.append_left
  have hnone : geq v (blkElems pre) = none := by
    apply geq_none_of_lt
    intro x hx
    obtain ⟨b, hb, h1, h2⟩ := (mem_blkElems hwp).mp hx
    have := hpre b hb
    omega
  have hg : geq v (blkElems bs) = geq v (blkElems bs') := by
    rw [hbs, blkElems_append, geq_append, hnone, Option.none_or]
  rw [hg]
  cases bs' with
  | nil =>
    simp at he'
    rw [if_neg (by omega)]
    rfl
  | cons b bs' =>
    simp only [List.length_cons] at he'
    rw [if_pos (by omega)]
    obtain ⟨h1, h2, h3, h4⟩ := hat
    have hidb : id' = b.id := by rw [h1] at hid'; cases hid'; rfl
    subst hidb
    have hb := hw'.head
    have hbid := hb.1
    obtain ⟨x, hx⟩ := hb.head?_exists
    have hge := hhd b rfl
    by_cases hbase : b.id * 256 ≥ v
    · rw [if_pos hbase, block_min_spec hb h2 h3 (by omega) hx, geq_head_of_le, blkElems_head? hx]
      · rfl
      · intro y hy
        obtain ⟨d, hd, e1, e2⟩ := (mem_blkElems hw').mp hy
        rcases List.mem_cons.mp hd with rfl | hd
        · omega
        · have := hw'.head_lt d hd; omega
    · rw [if_neg hbase]
      have hbeq : b.id = v / 256 := by omega
      obtain ⟨mx, emx, hmx1, hmx2⟩ := blk_max_spec hb h2 h3
      simp only [emx, ok_bind]
      have hvb : v - b.id * 256 = v % 256 := by omega
      rw [blkElems_cons, geq_append]
      by_cases hgt : v % 256 > mx
      · rw [if_pos hgt]
        have hn : geq v b.elems = none := by
          apply geq_none_of_lt
          intro y hy
          unfold Blk.elems at hy
          obtain ⟨z, hz, rfl⟩ := List.mem_map.mp hy
          have := hmx2 z hz
          omega
        rw [hn, Option.none_or]
        cases bs' with
        | nil =>
          simp at he'
          rw [if_pos he']
          rfl
        | cons d ds =>
          simp only [List.length_cons] at he'
          rw [if_neg (by omega)]
          obtain ⟨g1, g2, g3, g4⟩ := h4
          have hd := hw'.tail.head
          have hdid := hd.1
          obtain ⟨y, hy⟩ := hd.head?_exists
          have hc1 := hb.card_pos
          have hlt := hw'.head_lt d (by simp)
          rw [show b.size = bytes_by_cardinality b.vals.length from rfl] at g3
          simp only [h2, ok_bind, g1, show b.vals.length - 1 + 1 = b.vals.length by omega]
          rw [block_min_spec hd g2 g3 (by omega) hy, geq_head_of_le, blkElems_head? hy]
          · rfl
          · intro y hy
            obtain ⟨d', hd', e1, e2⟩ := (mem_blkElems hw'.tail).mp hy
            rcases List.mem_cons.mp hd' with rfl | hd'
            · omega
            · have := hw'.tail.head_lt d' hd'; omega
      · rw [if_neg hgt]
        have hc1 := hb.card_pos
        simp only [h2, ok_bind, show b.vals.length - 1 + 1 = b.vals.length by omega]
        have hs := blk_geq_spec (v := v % 256) hb h3 (by omega)
        obtain ⟨z, hz⟩ : ∃ z, geq (v % 256) b.vals = some z := by
          cases hq : geq (v % 256) b.vals with
          | some z => exact ⟨z, rfl⟩
          | none =>
            unfold geq at hq
            rw [List.find?_eq_none] at hq
            have := hq mx hmx1
            simp at this; omega
        have hzm : z ∈ b.vals := List.mem_of_find?_eq_some hz
        have hz256 := hb.2.2.2 z hzm
        rw [hz] at hs
        have hfin : geq v b.elems = some (b.id * 256 + z) := by
          unfold Blk.elems
          rw [geq_map_add (by omega), hvb, hz]; rfl
        rw [hfin, Option.some_or]
        by_cases hc : b.vals.length < 31
        · rw [if_pos hc] at hs ⊢
          rw [hs]; simp only [ok_bind, pure_ok, Option.getD_some]
          rw [u32_lt (by omega), Nat.add_comm]
        · rw [if_neg hc] at hs ⊢
          rw [hs]; simp only [ok_bind, pure_ok, Option.getD_some]
          rw [u32_lt (by omega), Nat.add_comm]

/-! ## Chunks -/

theorem Chk.WF.head?_exists {c : Chk} (hw : c.WF) : ∃ x, c.body.vals.head? = some x := by
  cases h : c.body.vals with
  | nil => exact absurd h hw.2.ne_nil
  | cons a l => exact ⟨a, rfl⟩

theorem seqElems_head? {c : Chk} {cs : List Chk} {x : Nat} (hx : c.body.vals.head? = some x) :
    (seqElems (c :: cs)).head? = some (c.id * 65536 + x) := by
  rw [seqElems_cons, List.head?_append]
  simp [Chk.elems, List.head?_map, hx]

theorem chunk_min_spec {dbg : Bool} {B : Nat → Chk → Prop} {pad : Nat} {m : Mem} {it : It}
    {c : Chk} {cs : List Chk} {x : Nat} (h : ItOnP B m it (c :: cs))
    (hbody : BodyAt pad m it.data c.body) (hx : c.body.vals.head? = some x) :
    chunk_min dbg m it = .ok (c.id * 65536 + x) := by
  have hw := h.wf.head
  have hid := hw.1
  have hbw := hw.2
  have hxb := hbw.bound x (List.mem_of_head? hx)
  unfold chunk_min
  cases hb : c.body with
  | full =>
    rw [h.type_full hb, h.base]
    rw [hb] at hx
    have hx0 : x = 0 := by
      simp only [Body.vals, List.head?_range] at hx
      simpa using hx.symm
    subst hx0
    simp only [ok_bind, type_sparse, type_dense, Nat.reduceEqDiff, if_false, if_true, pure_ok]
    rw [u32_lt (by omega), Nat.add_comm]
  | dense vs =>
    rw [h.type_dense hb, h.base]
    rw [hb] at hbody hx hbw
    replace hbody : BitsAt (memWords m it.data) 1024 (fun x => decide (x ∈ vs)) := hbody
    have := min_value_in_bitmap_spec hbody (by omega) hbw.2.1 hbw.2.2 hx
    simp only [ok_bind, type_sparse, type_dense, Nat.reduceEqDiff, if_false, if_true]
    rw [this]
    simp only [ok_bind, pure_ok]
    rw [u32_lt (by omega), Nat.add_comm]
  | sparse bs =>
    rw [h.type_sparse hb, h.blocks_sparse hb, h.base]
    rw [hb] at hbody hbw hx
    have h1 := List.length_pos_iff.mpr hbw.1
    have h2 := hbw.2.length_le
    simp only [ok_bind, if_true, min_value_in_sparse_chunk]
    rw [cassert_of (by simp; omega)]
    simp only [ok_bind]
    rw [show it.data + bs.length * 2 = it.data + 2 * bs.length by omega]
    replace hbody : BlocksAt pad m it.data (it.data + 2 * bs.length) bs := hbody
    obtain ⟨hne, hwf⟩ := hbw
    cases bs with
    | nil => exact absurd rfl hne
    | cons b bs =>
      obtain ⟨y, hy⟩ := hwf.head.head?_exists
      have hbid := hwf.head.1
      have hyx : x = b.id * 256 + y := by
        have := blkElems_head? (bs := bs) hy
        simp only [Body.vals] at hx
        rw [this] at hx
        cases hx; rfl
      rw [hbody.1]
      simp only [ok_bind]
      rw [block_min_spec hwf.head hbody.2.1 hbody.2.2.1 (by omega) hy]
      simp only [ok_bind, pure_ok]
      rw [u32_lt (by omega), hyx, Nat.add_comm]

theorem next_geq_chunk_value {dbg : Bool} {B : Nat → Chk → Prop} {pad : Nat} {m : Mem} {it : It}
    {c : Chk} {cs : List Chk} {v : Nat} (h : ItOnP B m it (c :: cs))
    (hbody : BodyAt pad m it.data c.body) (hv : v < 65536) :
    (do
      let t ← it.type m
      if t = type_sparse then do
        let blocks ← it.blocks m
        next_geq_sparse_chunk dbg m it.data blocks v
      else if t = type_dense then
        next_geq_bitmap (memWords m it.data) chunk_size_in_64bit_words v
      else if t = type_full then pure v
      else unreachable dbg : Res Nat) = .ok ((geq v c.body.vals).getD not_found) := by
  have hw := h.wf.head
  have hbw := hw.2
  cases hb : c.body with
  | full =>
    rw [h.type_full hb]
    have hg : geq v (Body.full).vals = some v := by
      unfold geq Body.vals
      rw [List.find?_range_eq_some]
      refine ⟨by simp, List.mem_range.mpr hv, ?_⟩
      intro j hj
      simpa using hj
    rw [hg]
    simp [type_sparse, type_dense, type_full]
  | dense vs =>
    rw [h.type_dense hb]
    rw [hb] at hbody hbw
    replace hbody : BitsAt (memWords m it.data) 1024 (fun x => decide (x ∈ vs)) := hbody
    have := next_geq_bitmap_spec (v := v) hbody (by omega) (by omega) hbw.2.1 hbw.2.2
    simp only [ok_bind, type_sparse, if_true, Nat.reduceEqDiff, if_false]
    exact this
  | sparse bs =>
    rw [h.type_sparse hb, h.blocks_sparse hb]
    rw [hb] at hbody hbw
    simp only [ok_bind, if_true]
    exact next_geq_sparse_chunk_spec hbw.1 hbw.2 hbody hv

theorem SSeq.next_geq_of_skip {dbg : Bool} {B : Nat → Chk → Prop} {pad : Nat} {m : Mem} {s : SSeq}
    {cs : List Chk} {it : It} (hw : ChunksWF cs) (hne : cs ≠ []) {v : Nat} (hv : v < 4294967296)
    (e : s.begin.skip_to_value m (v / 65536) = .ok it) (hit : ItOnP B m it (fromId (v / 65536) cs))
    (hB : ∀ dp c, c.id = v / 65536 → B dp c → BodyAt pad m dp c.body)
    (hB' : ∀ dp c x, geq v (seqElems cs) = some x → c.id = x / 65536 → B dp c →
      BodyAt pad m dp c.body) :
    s.next_geq dbg m v = .ok ((geq v (seqElems cs)).getD 4294967295) := by
  unfold SSeq.next_geq
  simp only [e, ok_bind]
  rcases fromId_cases (v / 65536) cs with ⟨h1, h2⟩ | ⟨pre, c, post, h1, h2, h3, h4⟩
  · rw [h1] at hit
    rw [hit.base_nil, hit.has_next_nil]
    have hv0 : ¬ (0 ≥ v) := by
      intro hv0
      have hv0 : v = 0 := by omega
      subst hv0
      cases cs with
      | nil => exact hne rfl
      | cons c cs => have := h2 c (by simp); omega
    simp only [ok_bind, if_neg hv0]
    rw [geq_none_of_lt]
    · rfl
    · intro x hx
      obtain ⟨c, hc, hid, -⟩ := (mem_seqElems hw).mp hx
      have := h2 c hc
      omega
  · rw [h2] at hit
    have hcw : ChunksWF (c :: post) := hit.wf
    have hc := hcw.head
    have hcid := hc.1
    have hpw : ChunksWF pre := by
      have := hw
      rw [h1] at this
      exact ⟨(List.pairwise_append.mp this.1).1, fun d hd => this.2 d (by simp [hd])⟩
    have hg : geq v (seqElems cs) = geq v (seqElems (c :: post)) := by
      rw [h1]
      have : seqElems (pre ++ c :: post) = seqElems pre ++ seqElems (c :: post) := by simp [seqElems]
      rw [this, geq_append, geq_none_of_lt, Option.none_or]
      intro x hx
      obtain ⟨d, hd, hid, -⟩ := (mem_seqElems hpw).mp hx
      have := h3 d hd
      omega
    rw [hg, hit.base, hit.has_next]
    simp only [ok_bind, if_true]
    by_cases hb : c.id * 65536 ≥ v
    · rw [if_pos hb]
      obtain ⟨x, hx⟩ := hc.head?_exists
      have hxb := hc.2.bound x (List.mem_of_head? hx)
      have hg' : geq v (seqElems (c :: post)) = some (c.id * 65536 + x) := by
        rw [geq_head_of_le, seqElems_head? hx]
        intro y hy
        obtain ⟨d, hd, hid, -⟩ := (mem_seqElems hcw).mp hy
        rcases List.mem_cons.mp hd with rfl | hd
        · omega
        · have := hcw.head_lt d hd; omega
      rw [chunk_min_spec hit (hB' _ _ _ (hg.trans hg') (by omega) hit.at_.2.1) hx, hg']
      rfl
    · rw [if_neg hb]
      have hv' := next_geq_chunk_value (dbg := dbg) (v := v % 65536) hit
        (hB _ _ (by omega) hit.at_.2.1) (by omega)
      have hgc : geq v c.elems = (geq (v % 65536) c.body.vals).map (c.id * 65536 + ·) := by
        unfold Chk.elems
        rw [geq_map_add (by omega)]
        congr 2; omega
      -- the code after the chunk has been searched
      have hk : (if (geq (v % 65536) c.body.vals).getD not_found ≠ not_found then
            pure (u32 ((geq (v % 65536) c.body.vals).getD not_found + c.id * 65536))
          else do
            let it ← it.next m
            if it.has_next then chunk_min dbg m it else pure not_found : Res Nat)
          = .ok ((geq v (seqElems (c :: post))).getD 4294967295) := by
        rw [seqElems_cons, geq_append, hgc]
        cases hq : geq (v % 65536) c.body.vals with
        | some z =>
          have hz := hc.2.bound z (List.mem_of_find?_eq_some hq)
          simp only [Option.getD_some, Option.map_some, Option.some_or, pure_ok, not_found]
          rw [if_pos (by omega), u32_lt (by omega), Nat.add_comm]
        | none =>
          simp only [Option.getD_none, ne_eq, not_true_eq_false, if_false, Option.map_none,
            Option.none_or]
          obtain ⟨it', e', hit', -⟩ := hit.next
          rw [e']
          simp only [ok_bind]
          cases post with
          | nil => rw [hit'.has_next_nil]; rfl
          | cons d post =>
            rw [hit'.has_next]
            obtain ⟨x, hx⟩ := hcw.tail.head.head?_exists
            simp only [if_true]
            have hxb := hcw.tail.head.2.bound x (List.mem_of_head? hx)
            have hg' : geq v (seqElems (d :: post)) = some (d.id * 65536 + x) := by
              rw [geq_head_of_le, seqElems_head? hx]
              intro y hy
              obtain ⟨d', hd, hid, -⟩ := (mem_seqElems hcw.tail).mp hy
              have := hcw.head_lt d' hd
              omega
            have hg'' : geq v (seqElems cs) = some (d.id * 65536 + x) := by
              rw [hg, seqElems_cons, geq_append, hgc, hq, hg']; rfl
            rw [chunk_min_spec hit' (hB' _ _ _ hg'' (by omega) hit'.at_.2.1) hx, hg']
            rfl
      rw [hit.type] at hv' ⊢
      simp only [ok_bind] at hv' ⊢
      split at hv' <;> rename_i ht1
      · rw [hit.blocks] at hv' ⊢
        simp only [ok_bind] at hv' ⊢
        rw [if_pos ht1, hv']; exact hk
      · rw [if_neg ht1]
        split at hv' <;> rename_i ht2
        · rw [if_pos ht2, hv']; exact hk
        · rw [if_neg ht2]
          split at hv' <;> rename_i ht3
          · rw [if_pos ht3, hv']; exact hk
          · rw [if_neg ht3, hv']; exact hk

/-- Only the data of the slice of `v` and of the slice of the answer matters. -/
theorem SSeq.next_geq_specP {dbg : Bool} {B : Nat → Chk → Prop} {pad : Nat} {m : Mem} {s : SSeq}
    {cs : List Chk} (h : SeqAtP B m s cs) {v : Nat} (hv : v < 4294967296)
    (hB : ∀ dp c, c.id = v / 65536 → B dp c → BodyAt pad m dp c.body)
    (hB' : ∀ dp c x, geq v (seqElems cs) = some x → c.id = x / 65536 → B dp c →
      BodyAt pad m dp c.body) :
    s.next_geq dbg m v = .ok ((geq v (seqElems cs)).getD 4294967295) := by
  obtain ⟨it, e, hit, -⟩ := It.skip_to_value_spec (lb := v / 65536) h.begin h.ptrs
  exact SSeq.next_geq_of_skip h.wf h.ne hv e hit hB hB'

theorem SSeq.next_geq_spec {dbg : Bool} {pad : Nat} {m : Mem} {s : SSeq} {cs : List Chk}
    (h : SeqAt pad m s cs) {v : Nat} (hv : v < 4294967296) :
    s.next_geq dbg m v = .ok ((geq v (seqElems cs)).getD 4294967295) :=
  SSeq.next_geq_specP h hv (fun _ _ _ hb => hb) (fun _ _ _ _ _ hb => hb)

end Sliced
